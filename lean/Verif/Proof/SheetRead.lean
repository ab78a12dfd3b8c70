import Verif.Proof.Dry
import Verif.Proof.Sheet
/-
What `read_line` returns with the Emacs keys on a new line.
-/

namespace Liner
namespace Props
open Editor KM Liner.Spec

section
variable (E : Env) (comp : Text → List Text) {H : History} {k k' : Emacs} {s s' : Ed} {p : Sheet} {key : Key}

theorem Held.quiet (h : Held H k s p) : Held H k (Editor.quiet s) p := by
  have hq := h.here.quiet
  have e2 : (Editor.quiet s).isSearch = false := rfl
  have e3 : sugOf (Editor.quiet s) = sugOf s := by
    unfold sugOf
    rw [hq, e2]
    rfl
  exact ⟨⟨rfl, h.here.ne, trivial, h.here.here⟩, h.clean, h.loc, h.show', h.hist, e3.trans h.sug, h.log, h.arg, h.bound⟩

theorem beside_quiet (s : Ed) : Beside false true s (Editor.quiet s) :=
  ⟨rfl, rfl, rfl, rfl, fun _ => rfl, fun _ => rfl, by simp [Editor.quiet]⟩

/-- The end of Enter. -/
theorem finish_held (h : Held H k s p) (hh : s.showCompletionsHint = none) : Wp (finishLine E) s
    (fun done s' => (p.left.getLast? = some '\\' → done = false ∧ Held H k s' (p.put (p.left ++ ['\n']) p.right) ∧
        Beside true false s s') ∧
      (p.left.getLast? ≠ some '\\' → done = true ∧ text? s' = some p.text)) (fun _ _ => True) (· ≠ .op) := by
  obtain ⟨b0, h0, h1⟩ := text?_eq.mp h.here.here.1
  have hc := h.here.here.2
  unfold finishLine
  rw [wp_bind, wp_get]
  rw [if_neg (by simp [hh]), wp_bind, wp_curBuf]
  refine ⟨fun b hb' => ?_, fun hn => ?_⟩
  · rw [h0] at hb'; cases hb'
    by_cases hl : p.left.getLast? = some '\\'
    · rw [if_pos (by rw [hc, charBefore_at h1]; exact hl), wp_bind]
      refine wp_mono (insert_held E h (cs := ['\n']) (by simp) h.arg h.bound) (fun _ s' h2 => ?_) (fun _ _ h => h)
        (fun _ h => h)
      exact ⟨fun _ => ⟨rfl, h2.1, h2.2⟩, fun hn => absurd hl hn⟩
    · rw [if_neg (by rw [hc, charBefore_at h1]; exact hl), wp_bind, wp_modify, wp_bind]
      refine wp_mono (displayImpl_wp E false _) (fun _ s' h2 => ?_) (fun _ _ _ => trivial) (fun w hw => ?_)
      · obtain ⟨b, hb, l', c, o, t, rfl⟩ := h2.drawn
        rw [wp_bind, wp_writeTerm]
        refine ⟨fun _ => ?_, fun _ => trivial⟩
        rw [wp_bind, wp_modify]
        refine ⟨fun hh => absurd hh hl, fun _ => ⟨rfl, h.here.here.1⟩⟩
      · rintro rfl
        have : s.curBuf? = none := hw
        rw [h0] at this; cases this
  · rw [show s.curBuf? = none from hn] at h0; cases h0

/-- Enter. -/
theorem newline_held (h : Held H k s p) (hh : s.showCompletionsHint = none) : Wp (handleNewline E) s
    (fun done s' => (p.left.getLast? = some '\\' → done = false ∧ Held H k s' (p.put (p.left ++ ['\n']) p.right) ∧
        Beside true true s s') ∧
      (p.left.getLast? ≠ some '\\' → done = true ∧ text? s' = some p.text)) (fun _ _ => True) (· ≠ .op) := by
  rw [newline_run E h.here.quiet]
  refine wp_mono (finish_held E h.quiet hh) (fun done s' h1 => ⟨fun hl => ?_, h1.2⟩) (fun _ _ h => h) (fun _ h => h)
  obtain ⟨h2, h3, h4⟩ := h1.1 hl
  exact ⟨h2, h3, (beside_quiet s).trans h4⟩

/-- The end of Enter while a list is shown. -/
theorem finish_listed (hh : s.showCompletionsHint ≠ none) :
    finishLine E s = .ok false { s with showCompletionsHint := none } := by
  unfold finishLine
  rw [bind_ok (m := M.get) (a := s) (s' := s) rfl, if_pos (by simpa using Option.isSome_iff_ne_none.mpr hh)]
  rfl

/-- Enter does not panic except in the redraw. -/
theorem newline_ends (h : Held H k s p) : Wp (handleNewline E) s (fun _ _ => True) (fun _ _ => True) (· ≠ .op) := by
  by_cases hh : s.showCompletionsHint = none
  · exact wp_mono (newline_held E h hh) (fun _ _ _ => trivial) (fun _ _ h => h) (fun _ h => h)
  · rw [newline_run E h.here.quiet]
    unfold Wp
    rw [finish_listed E (s := Editor.quiet s) hh]
    trivial

/-- The key Enter. -/
theorem enter_held (h : Held H k s p) (hh : s.showCompletionsHint = none) : Wp (Emacs.keyMap.handleKey E comp (.char '\n')) (k, s)
    (fun done t' => (p.left.getLast? = some '\\' → done = false ∧ Held H t'.1 t'.2 (p.put (p.left ++ ['\n']) p.right) ∧
        Beside true true s t'.2) ∧
      (p.left.getLast? ≠ some '\\' → done = true ∧ text? t'.2 = some p.text)) (fun _ _ => True) (· ≠ .op) := by
  obtain ⟨b, hb, hbd⟩ := text?_eq.mp h.here.here.1
  rw [wp_congr (handleKey_eq Emacs.keyMap E comp (t := (k, s)) hb _), wp_bind]
  have : KeyMap.translate (.char '\n') = .char '\n' := by decide
  rw [this, wp_congr (dispatch_newline Emacs.keyMap E comp (k, s)), wp_ed]
  refine wp_mono (newline_held E h hh) (fun done s' h1 => ?_) (fun _ _ h => h) (fun _ h => h)
  rw [wp_bind, wp_ed, wp_flush]
  refine ⟨fun _ => ⟨fun hl => ?_, fun hl => ?_⟩, fun _ => trivial⟩
  · obtain ⟨rfl, h2, h3⟩ := h1.1 hl
    refine ⟨rfl, ?_⟩
    exact And.intro (h2.listed s'.showCompletionsHint (s'.tick + 1)) (h3.listed s'.showCompletionsHint (s'.tick + 1))
  · exact h1.2 hl

/-- Ctrl-C, and Ctrl-D on an empty line. -/
theorem stop_held (h : Held H k s p) (hk : key = .ctrl 'c' ∨ (key = .ctrl 'd' ∧ p.text = [])) :
    Wp (Emacs.keyMap.handleKey E comp key) (k, s) (fun _ _ => False) (fun _ _ => True) (· ≠ .op) := by
  obtain ⟨b, hb, hbd⟩ := text?_eq.mp h.here.here.1
  rw [wp_congr (handleKey_eq Emacs.keyMap E comp (t := (k, s)) hb _), wp_bind]
  have fin : ∀ e, Wp (do let _ ← KM.ed (handleNewline E); M.throw e : KM Emacs Bool) (k, s) (fun _ _ => False)
      (fun _ _ => True) (· ≠ .op) := by
    intro e
    rw [wp_bind, wp_ed]
    exact wp_mono (newline_ends E h) (fun _ _ _ => trivial) (fun _ _ h => h) (fun _ h => h)
  rcases hk with rfl | ⟨rfl, he⟩
  · rw [show KeyMap.translate (.ctrl 'c') = .ctrl 'c' from by decide]
    refine wp_mono (Q := fun _ _ => False) (R := fun _ _ => True) (P := (· ≠ .op)) ?_ (fun _ _ h => h.elim) (fun _ _ h => h)
      (fun _ h => h)
    refine (wp_congr ?_).mpr (fin .interrupted)
    unfold KeyMap.dispatch
    rw [bind_ok (m := ed M.get) (a := (k, s).2) (s' := (k, s)) rfl]
    dsimp only
    rw [if_pos rfl]
  · rw [show KeyMap.translate (.ctrl 'd') = .ctrl 'd' from by decide]
    refine wp_mono (Q := fun _ _ => False) (R := fun _ _ => True) (P := (· ≠ .op)) ?_ (fun _ _ h => h.elim) (fun _ _ h => h)
      (fun _ h => h)
    refine (wp_congr ?_).mpr (fin .unexpectedEof)
    unfold KeyMap.dispatch
    rw [bind_ok (m := ed M.get) (a := (k, s).2) (s' := (k, s)) rfl]
    dsimp only
    rw [if_neg (by simp), if_pos ⟨rfl, by rw [show p.left ++ p.right = [] from he] at hbd; simp [Buffer.isEmpty, hbd]⟩]

/-- The errors of a key. -/
theorem key_errs (t : Emacs × Ed) (key : Key) : Wp (Emacs.keyMap.handleKey E comp key) t (fun _ _ => True)
    (fun e _ => (e = .io ∧ ¬ Works E) ∨ (e = .interrupted ∧ key = .ctrl 'c') ∨
      (e = .unexpectedEof ∧ key = .ctrl 'd' ∧ text? t.2 = some [])) (fun _ => True) := by
  unfold Wp
  cases hm : Emacs.keyMap.handleKey E comp key t with
  | ok a s' => trivial
  | panic w => trivial
  | err e s' =>
    have hA : Io E (fun e => e = .io ∧ ¬ Works E) := by
      by_cases hw : Works E
      · exact .inl hw
      · exact .inr ⟨rfl, hw⟩
    exact only_stops Emacs.keyMap E comp hA (fun key => errs_usesK (T := fun _ => False) hA
      (fun _ h => h.elim) (Emacs.uses_core E key)) hm

/-- The errors of a key other than Tab, and that it makes no list appear. -/
theorem key_after (t : Emacs × Ed) {key : Key} (hk : key ≠ .char '\t') (hn : t.2.showCompletionsHint = none) :
    Wp (Emacs.keyMap.handleKey E comp key) t (fun _ t' => t'.2.showCompletionsHint = none)
    (fun e _ => (e = .io ∧ ¬ Works E) ∨ (e = .interrupted ∧ key = .ctrl 'c') ∨
      (e = .unexpectedEof ∧ key = .ctrl 'd' ∧ text? t.2 = some [])) (fun _ => True) :=
  wp_mono (wp_and (key_errs E comp t key) (key_dry E comp Emacs.keyMap t hk hn)) (fun _ _ h => h.2) (fun _ _ h => h.1) (fun _ h => h.1)

theorem loop_sheet (hw : E.words = getBufferWords) : ∀ (input : List KeyMap.Input),
    (∀ key, some key ∈ input.map Sheet.pressed → Sheet.leaves key = true → key = .char '\n' ∨ key = .ctrl 'c') →
    ∀ (k : Emacs) (s : Ed) (p : Sheet), HeldNew H k s p → s.showCompletionsHint = none →
    Wp (Emacs.keyMap.loop E input) (k, s)
      (fun txt _ => Sheet.Reads (texts H) (input.map Sheet.pressed) p (.line txt))
      (fun e _ => Sheet.Reads (texts H) (input.map Sheet.pressed) p (.stop e) ∨ (e = .io ∧ ¬ Works E)) (· ≠ .op)
  | [], _, k, s, p, h, _ => by
    unfold KeyMap.loop
    rw [wp_bind, wp_ed, wp_get]
    have : intoText s = some p.text := h.1.here.here.1
    rw [this]
    exact rfl
  | .ioErr :: _, _, k, s, p, h, _ => .inl rfl
  | .key key comp :: rest, hk, k, s, p, h, hh => by
    have hk' := hk key (by simp [Sheet.pressed])
    have ih := loop_sheet hw rest (fun y hy => hk y (List.mem_cons_of_mem _ hy))
    have h2 := key_after E comp (k, s) (key := key) (by rintro rfl; rcases hk' rfl with h | h <;> cases h) hh
    have ht : text? (k, s).2 = some p.text := h.1.here.here.1
    have hr : ∀ o, Sheet.Reads (texts H) ((KeyMap.Input.key key comp :: rest).map Sheet.pressed) p o ↔
      if key = .ctrl 'c' then o = .stop .interrupted
      else if key = .ctrl 'd' ∧ p.text = [] then o = .stop .unexpectedEof
      else if key = .char '\n' then
        if p.left.getLast? = some '\\' then Sheet.Reads (texts H) (rest.map Sheet.pressed) (p.put (p.left ++ ['\n']) p.right) o
        else o = .line p.text
      else ∃ m, p.Next (texts H) key m ∧ Sheet.Reads (texts H) (rest.map Sheet.pressed) m o := fun o => Iff.rfl
    simp only [hr]
    clear hr
    unfold KeyMap.loop
    rw [wp_bind]
    have err : ∀ e : IoErr, ((e = .io ∧ ¬ Works E) ∨ (e = .interrupted ∧ key = .ctrl 'c') ∨
        (e = .unexpectedEof ∧ key = .ctrl 'd' ∧ text? (k, s).2 = some [])) → key ≠ .ctrl 'c' →
        ¬ (key = .ctrl 'd' ∧ p.text = []) → e = .io ∧ ¬ Works E := by
      rintro e (h | ⟨-, h⟩ | ⟨-, h, h'⟩) h3 h4
      · exact h
      · exact absurd h h3
      · rw [ht] at h'; exact absurd ⟨h, Option.some.inj h'⟩ h4
    by_cases hc : key = .ctrl 'c'
    · simp only [if_pos hc]
      refine wp_mono (wp_and (stop_held E comp h.1 (.inl hc)) h2) (fun _ _ h => h.1.elim) (fun e _ h3 => ?_) (fun _ h => h.1)
      rcases h3.2 with h4 | ⟨rfl, -⟩ | ⟨-, h4, -⟩
      · exact .inr h4
      · exact .inl rfl
      · rw [hc] at h4; cases h4
    simp only [if_neg hc]
    by_cases hd : key = .ctrl 'd' ∧ p.text = []
    · simp only [if_pos hd]
      refine wp_mono (wp_and (stop_held E comp h.1 (.inr hd)) h2) (fun _ _ h => h.1.elim) (fun e _ h3 => ?_) (fun _ h => h.1)
      rcases h3.2 with h4 | ⟨-, h4⟩ | ⟨rfl, -⟩
      · exact .inr h4
      · exact absurd h4 hc
      · exact .inl rfl
    simp only [if_neg hd]
    by_cases hn : key = .char '\n'
    · subst hn
      simp only [if_pos]
      refine wp_mono (wp_and (enter_held E comp h.1 hh) h2) (fun done t1 h3 => ?_) (fun e _ h3 => .inr (err e h3.2 hc hd))
        (fun _ h => h.1)
      by_cases hl : p.left.getLast? = some '\\'
      · simp only [if_pos hl]
        obtain ⟨rfl, h4, h5⟩ := h3.1.1 hl
        exact ih t1.1 t1.2 _ ⟨h4, h5.loc.trans h.2⟩ h3.2
      · simp only [if_neg hl]
        obtain ⟨rfl, h4⟩ := h3.1.2 hl
        rw [if_pos rfl, wp_bind, wp_ed, wp_get]
        have : intoText t1.2 = some p.text := h4
        rw [this]
        exact rfl
    simp only [if_neg hn]
    have hlv : Sheet.leaves key = false := by
      cases hlv : Sheet.leaves key with
      | false => rfl
      | true => rcases hk' hlv with h | h <;> contradiction
    refine wp_mono (wp_and (new_step E comp hw h hlv hd) h2) (fun done t1 h3 => ?_) (fun e _ h3 => .inr (err e h3.2 hc hd))
        (fun _ h => h.1)
    obtain ⟨⟨rfl, m, h4, h5⟩, h6⟩ := h3
    rw [if_neg (by simp)]
    refine wp_mono (ih t1.1 t1.2 m h5 h6) (fun _ _ h => ⟨m, h4, h⟩) (fun _ _ h => ?_) (fun _ h => h)
    exact h.imp (fun h => ⟨m, h4, h⟩) id

theorem read_sheet (hw : E.words = getBufferWords) (pr pr' : Prompt) (H : History) (fs : FS) (t : Text)
    (input : List KeyMap.Input)
    (hk : ∀ key, some key ∈ input.map Sheet.pressed → Sheet.leaves key = true → key = .char '\n' ∨ key = .ctrl 'c') :
    Wp (Emacs.keyMap.readLine E pr input) ({}, initial pr' H fs (.ofText t))
      (fun txt _ => Sheet.Reads (texts H) (input.map Sheet.pressed) ⟨t, [], [], none⟩ (.line txt))
      (fun e _ => Sheet.Reads (texts H) (input.map Sheet.pressed) ⟨t, [], [], none⟩ (.stop e) ∨ (e = .io ∧ ¬ Works E))
      (fun w => w = .op → E.ttyWidth = some 0) := by
  unfold KeyMap.readLine KeyMap.handleKeys
  rw [wp_bind, wp_ed]
  refine wp_mono (wp_and (start_held E pr pr' H fs t) (dry_start E pr _)) (fun _ s1 h1 => ?_) (fun _ _ h => .inr h.1) (fun _ h => h.1)
  show Wp (pure () >>= fun _ => Emacs.keyMap.loop E input) _ _ _ _
  rw [wp_bind, wp_pure]
  exact wp_mono (loop_sheet E hw input hk _ s1 _ h1.1 h1.2) (fun _ _ h => h) (fun _ _ h => h) (fun _ h hw => absurd hw h)

end
end Props
end Liner
