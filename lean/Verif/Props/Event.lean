import Verif.Proof.Event
import Verif.Props.Witness
/-
C68: what a completer is told while a line is read, and what it can rely on.
-/

namespace Liner.Props
open Liner Liner.Spec Liner.Wit

variable {κ η : Type} (H : Handler η) (E : Env) (km : KeyMap κ)

/-- C68: during a session with any completer, whatever its events do, the completer gets for every key in turn
one event before and one after it, for Tab also one before completing, and at most one question. -/
theorem C68_told_partial (p : Prompt) (keys : List Key) {k : κ} {h : η} {s : Ed} {t' : (κ × η × List Call) × Ed}
    (hr : sessionH (recording H) E km p keys ((k, (h, [])), s) = .ok () t') : ToldAll keys t'.1.2.2 := by
  have key : Wp (sessionH (recording H) E km p keys) ((k, (h, [])), s)
      (fun _ t' => ToldAll keys t'.1.2.2) (fun _ _ => True) (fun _ => True) := by
    unfold sessionH
    rw [wp_bind]
    refine wp_mono (silent_ed _ _) ?_ (fun _ _ _ => trivial) (fun _ h => h)
    rintro _ u ⟨_, rfl, hu⟩
    rw [wp_bind]
    refine wp_mono (silent_map _ _) ?_ (fun _ _ _ => trivial) (fun _ h => h)
    rintro _ v ⟨_, rfl, hv⟩
    refine wp_mono (press_calls H E km keys v) ?_ (fun _ _ h => h) (fun _ h => h)
    rintro _ w ⟨c, hc, hw⟩
    have : calls w = c := by rw [hw, hv, hu]; simp [calls]
    show ToldAll keys (calls w)
    rw [this]; exact hc
  have := wp_ok key hr
  exact this

/-- C68: when a key ends the reading with an error, the completer got the first of its calls, at least the one
before the key; after Ctrl-C nothing else. -/
theorem C68_stopped_partial (k : Key) {t t' : (κ × η × List Call) × Ed} {e : IoErr}
    (hr : Handled.handleKey (recording H) E km k t = .err e t') :
    ∃ c r, Told k (c ++ r) ∧ c ≠ [] ∧ (k = .ctrl 'c' → c = [.event (.beforeKey k)]) ∧
      t'.1.2.2 = t.1.2.2 ++ c := by
  have := wp_err (handleKey_calls H E km k t) hr
  exact this

/-- C68: a completer that leaves the editor alone is asked for candidates by Tab exactly when no list is shown. -/
theorem C68_asked (hq : Quiet H) {t t' : (κ × η × List Call) × Ed} {done : Bool}
    (hr : Handled.handleKey (recording H) E km (.char '\t') t = .ok done t') :
    (∃ w, Call.asked w ∈ t'.1.2.2.drop t.1.2.2.length) ↔ t.2.showCompletionsHint = none := by
  have htab : KeyMap.translate (.char '\t') = .char '\t' := by decide
  have key : Wp (Handled.handleKey (recording H) E km (.char '\t')) t
      (fun _ t' => (∃ w, Call.asked w ∈ (calls t').drop (calls t).length) ↔
        t.2.showCompletionsHint = none) (fun _ _ => True) (fun _ => True) := by
    unfold Handled.handleKey
    rw [wp_bind, wp_fire]
    refine ⟨fun x hx => ?_, fun _ => trivial⟩
    obtain ⟨h', hq'⟩ := hq (.beforeKey (.char '\t')) t.1.2.1 t.2
    simp only [recording, hq', Option.map_some, Option.some.injEq] at hx
    subst hx
    rw [wp_bind, wp_ed, Editor.wp_curBuf]
    refine ⟨fun b _ => ?_, fun _ => trivial⟩
    rw [wp_bind, htab]
    unfold Handled.dispatch
    rw [wp_bind, wp_ed, wp_get, if_neg (by simp), if_neg (by simp), if_pos rfl, wp_bind]
    refine wp_mono (wp_and (complete_asked H E hq _) (complete_calls H E _)) ?_ (fun _ _ _ => trivial)
      (fun _ _ => trivial)
    rintro _ u ⟨hu, c, _, hc⟩
    rw [wp_pure, wp_bind]
    refine wp_mono (fire_calls H _ u) (fun _ v hv => ?_) (fun _ _ h => h.elim) (fun _ h => h)
    rw [wp_bind]
    refine wp_mono (silent_ed _ v) ?_ (fun _ _ _ => trivial) (fun _ h => h)
    rintro _ w ⟨_, rfl, hw⟩
    rw [wp_pure]
    simp only [calls] at hu hc hv hw ⊢
    rw [hc] at hu
    rw [hw, hv, hc]
    simpa using hu
  have := wp_ok key hr
  exact this

/-- C68: with a completer whose events leave the editor alone, a whole call of `read_line` does what it does in
the model without events, on the same keys and with the answers of the completer.  All that is proved there for
arbitrary answers therefore holds for it. -/
theorem C68_quiet (hq : Quiet H) (p : Prompt) (input : List (Option Key)) (k : κ) (h : η) (s : Ed) :
    ∃ is, Inputs H input is ∧
      (erase (Handled.readLine H E km p input ((k, h), s)) = km.readLine E p is (k, s) ∨
        Handled.readLine H E km p input ((k, h), s) = .panic .op ∧ Panics H) :=
  agree_readLine H E km hq p input ((k, h), s)

/-- C68: the two completers of the crate leave the editor alone; the first never panics. -/
theorem C68_crate (prefixes : List Text) (disk : Nat → Disk) (wd : Option Text) (cs : Bool) :
    Quiet (basicHandler prefixes) ∧ ¬ Panics (basicHandler prefixes) ∧ Quiet (fileHandler disk wd cs) :=
  ⟨fun _ h _ => ⟨h, rfl⟩, (fun ⟨_, _, h⟩ => by cases h), fun _ h _ => ⟨h, rfl⟩⟩

/-- C68: a completer whose events work on the line with operations of the editor cannot make the cursor leave
the line, with the Emacs keys. -/
theorem C68_inside_emacs (hp : Polite E H) (p : Prompt) (keys : List Key) (t t' : (Emacs × η) × Ed)
    (hr : sessionH H E Emacs.keyMap p keys t = .ok () t') : Inside t'.2 := by
  have := wp_ok (inside_sessionH hp (Emacs.uses_core E) (Emacs.uses_init E) p keys t) hr
  exact this

/-- C68: the same with the vi keys. -/
theorem C68_inside_vi (hp : Polite E H) (p : Prompt) (keys : List Key) (t t' : (Vi × η) × Ed)
    (hr : sessionH H E Vi.keyMap p keys t = .ok () t') : Inside t'.2 := by
  have := wp_ok (inside_sessionH hp (Vi.uses_core E) (Vi.uses_init E) p keys t) hr
  exact this

/-- A completer that deletes the line when the user asks for help with `?`, and completes words. -/
def helper (E : Env) : Handler Nat where
  completions w n := some (if w = ['l'] then [['l', 's']] else [], n + 1)
  onEvent e t :=
    match e with
    | .afterKey (.char '?') =>
      match runOps E [.deleteAllBeforeCursor] t.2 with
      | .ok _ s => some (t.1, s)
      | _ => none
    | _ => some t

theorem helper_polite (E : Env) : Polite E (helper E) := by
  intro e h s h' s' hx
  unfold helper at hx
  dsimp only at hx
  split at hx
  · split at hx
    · rename_i heq
      cases hx
      exact ⟨_, heq⟩
    · cases hx
  · cases hx
    exact ⟨[], rfl⟩

/-- The session with the recorded calls. -/
def helped (keys : List Key) : Out ((Emacs × Nat × List Call) × Ed) Unit :=
  sessionH (recording (helper Tests.env)) Tests.env Emacs.keyMap { prompt := ['>', ' '] } keys
    (({}, (0, [])), fresh [])

example : okAnd (helped [.char 'x', .char '?', .char 'l', .char '\t']) (fun _ t =>
    text? t.2 == some ['l', 's'] && t.1.2 == (1, [.event (.beforeKey (.char 'x')),
      .event (.afterKey (.char 'x')), .event (.beforeKey (.char '?')), .event (.afterKey (.char '?')),
      .event (.beforeKey (.char 'l')), .event (.afterKey (.char 'l')), .event (.beforeKey (.char '\t')),
      .event .beforeComplete, .asked ['l'], .event (.afterKey (.char '\t'))])) = true := by decide +kernel

/-- C68 fails for Ctrl-H: the event after the key names another key than the event before it. -/
theorem C68_name_violation : ∃ t', helped [.ctrl 'h'] = .ok () t' ∧
    t'.1.2.2 = [.event (.beforeKey (.ctrl 'h')), .event (.afterKey .backspace)] := by
  have h : okAnd (helped [.ctrl 'h']) (fun _ t =>
      t.1.2.2 == [.event (.beforeKey (.ctrl 'h')), .event (.afterKey .backspace)]) = true := by decide +kernel
  obtain ⟨_, t', h1, h2⟩ := of_okAnd h
  exact ⟨t', h1, by simpa using h2⟩

/-- C68 fails for Ctrl-C: there is no event after the key. -/
theorem C68_interrupt_violation : ∃ t', helped [.ctrl 'c'] = .err .interrupted t' ∧
    t'.1.2.2 = [.event (.beforeKey (.ctrl 'c'))] := by
  have h : errAnd (helped [.ctrl 'c']) (fun e t =>
      e == .interrupted && t.1.2.2 == [.event (.beforeKey (.ctrl 'c'))]) = true := by decide +kernel
  obtain ⟨e, t', h1, h2⟩ := of_errAnd h
  simp only [Bool.and_eq_true, beq_iff_eq] at h2
  obtain ⟨rfl, h2⟩ := h2
  exact ⟨t', h1, h2⟩

/-- A completer of the crate at work: the answer completes the word, and a second Tab asks no more. -/
example : okAnd (Handled.readLine (basicHandler [['l', 's'], ['l', 'n']]) Tests.env Emacs.keyMap
    { prompt := ['>', ' '] } [some (.char 'l'), some (.char '\t'), some (.char '\t'), some (.char '\n')]
    (({}, ()), fresh [])) (fun l _ => l == ['l', 'n']) = true := by decide +kernel

example : errAnd (Handled.readLine (fileHandler (fun _ => ⟨fun _ => some [some (['a', 'b'], false)], id⟩)
      (some ['/']) true) Tests.env Vi.keyMap
    { prompt := ['>', ' '] } [some (.char 'a'), some (.char '\t'), none] (({}, 0), fresh []))
    (fun e t => e == .io && text? t.2 == some ['a', 'b'] && t.1.2 == 1) = true := by decide +kernel

end Liner.Props
