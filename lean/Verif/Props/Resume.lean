import Verif.Proof.Resume
import Verif.Props.Draft
import Verif.Props.Emacs
/-
C88: what comes after the editing of a line depends on the text and the cursor only.
-/

namespace Liner.Props
open Liner Liner.Editor M KM Liner.Wit Liner.Spec

theorem proposal_hint (h : History) (x : Text) : (proposal h x).map (·.data) = hint (texts h) x :=
  hint_of (suggests_of (b := .ofText x) rfl)

/-- C88: with the Emacs keys, two calls that begin with given lines and any editing keys (typing, moving in the line, deleting,
taking a suggestion), and get to the same text with the cursor at the same place, go on alike, whatever is pressed then,
apart from undo and revert. -/
theorem C88_resume {c c' : Context} {r r' : Call} (he : c.keyBindings = .emacs) (he' : c'.keyBindings = .emacs)
    (hh : c.history = c'.history) (hf : c.fs = c'.fs) (d d' : List (Key × (Text → List Text)))
    (rest : List KeyMap.Input) (hi : r.input = d.map (fun k => .key k.1 k.2) ++ rest)
    (hi' : r'.input = d'.map (fun k => .key k.1 k.2) ++ rest) (hd : ∀ k ∈ d, editing k.1 = true)
    (hd' : ∀ k ∈ d', editing k.1 = true) (hn : NoEof (texts c.history) (d.map (·.1)) (r.buffer, []))
    (hn' : NoEof (texts c.history) (d'.map (·.1)) (r'.buffer, []))
    (hx : edits (texts c.history) (d.map (·.1)) (r.buffer, []) = edits (texts c.history) (d'.map (·.1)) (r'.buffer, []))
    (hw : SameWords r.env r'.env) (h : r.env.ttyWidth ≠ some 0) (h' : r'.env.ttyWidth ≠ some 0)
    (hk : ∀ k comp, KeyMap.Input.key k comp ∈ rest → k ≠ .ctrl 'x' ∧ k ≠ .alt 'r') :
    Stopped (c.readLine r) ∨ Stopped (c'.readLine r') ∨ Seen (c.readLine r) = Seen (c'.readLine r') := by
  unfold Context.readLine
  rw [he, he', ← hh, ← hf, hi, hi']
  dsimp only
  rcases begun_emacs_read (h := c.history) (fs := c.fs) (x := r.buffer) h r.prompt
    (d.map (fun k => .key k.1 k.2) ++ rest) with h1 | ⟨s1, e1, b1⟩
  · exact .inl (ended_stopped c h1)
  rcases begun_emacs_read (h := c.history) (fs := c.fs) (x := r'.buffer) h' r'.prompt
    (d'.map (fun k => .key k.1 k.2) ++ rest) with h2 | ⟨s2, e2, b2⟩
  · exact .inr (.inl (ended_stopped c' h2))
  rcases poised_edits (E := r.env) rest (proposal_hint c.history) d (r.buffer, []) s1 (by simpa using b1.poised) hd hn
    with h3 | ⟨s3, v3, e3, hv3, b3⟩
  · rw [e1]; exact .inl (ended_stopped c h3)
  rcases poised_edits (E := r'.env) rest (proposal_hint c.history) d' (r'.buffer, []) s2 (by simpa using b2.poised) hd' hn'
    with h4 | ⟨s4, v4, e4, hv4, b4⟩
  · rw [e2]; exact .inr (.inl (ended_stopped c' h4))
  rw [e1, e2, e3, e4]
  have : v4 = v3 := by rw [hv3, hv4]; exact hx.symm
  subst this
  exact ended_akin (Q := Eq) (poised_loop hw rest hk b3 b4)

/-- C88, when both calls return a line. -/
theorem C88_line {c c' c1 c1' : Context} {r r' : Call} {t t' : Text} {o o' : List Tok} (he : c.keyBindings = .emacs)
    (he' : c'.keyBindings = .emacs) (hh : c.history = c'.history) (hf : c.fs = c'.fs)
    (d d' : List (Key × (Text → List Text))) (rest : List KeyMap.Input)
    (hi : r.input = d.map (fun k => .key k.1 k.2) ++ rest) (hi' : r'.input = d'.map (fun k => .key k.1 k.2) ++ rest)
    (hd : ∀ k ∈ d, editing k.1 = true) (hd' : ∀ k ∈ d', editing k.1 = true)
    (hn : NoEof (texts c.history) (d.map (·.1)) (r.buffer, [])) (hn' : NoEof (texts c.history) (d'.map (·.1)) (r'.buffer, []))
    (hx : edits (texts c.history) (d.map (·.1)) (r.buffer, []) = edits (texts c.history) (d'.map (·.1)) (r'.buffer, []))
    (hw : SameWords r.env r'.env)
    (hk : ∀ k comp, KeyMap.Input.key k comp ∈ rest → k ≠ .ctrl 'x' ∧ k ≠ .alt 'r')
    (h : c.readLine r = .ok t (c1, o)) (h' : c'.readLine r' = .ok t' (c1', o')) :
    t = t' ∧ c1.history = c1'.history ∧ c1.fs = c1'.fs := by
  have := C88_resume he he' hh hf d d' rest hi hi' hd hd' hn hn' hx hw (fun e => (narrow e).1 _ _ h)
    (fun e => (narrow e).1 _ _ h') hk
  rw [h, h'] at this
  simpa [Stopped, Seen] using this

/-! ### Concrete cases -/

/-- `ke` first, then `ma` before it, the cursor between. -/
def reworked : List Key :=
  [.char 'k', .char 'e', .char 'z', .ctrl 'h', .home, .char 'm', .char 'q', .left, .delete, .char 'a']

/-- `make` from its beginning, the cursor two back. -/
def straight : List Key := [.char 'm', .right, .left, .ctrl 'b']

theorem reworked_straight : edits (texts (under .emacs).history) (served reworked |>.map (·.1)) ([], []) = (['m', 'a'], ['k', 'e']) ∧
    edits (texts (under .emacs).history) (served straight |>.map (·.1)) ([], []) = (['m', 'a'], ['k', 'e']) := by
  decide +kernel

theorem noEof_of {entries : List Text} {keys : List Key} {u : Text × Text} (h : Key.ctrl 'd' ∉ keys) : NoEof entries keys u :=
  fun a c e => absurd (by rw [e]; simp) h

example : okAnd ((under .emacs).readLine (wide (reworked ++ further))) (fun t _ => t == ['x', 'l', 'm', 'a', 'k', 'k', 'e']) := by
  decide +kernel
example : okAnd ((under .emacs).readLine (slim 30 (straight ++ further))) (fun t _ => t == ['x', 'l', 'm', 'a', 'k', 'k', 'e']) := by
  decide +kernel

example : Stopped ((under .emacs).readLine (wide (reworked ++ further))) ∨
    Stopped ((under .emacs).readLine (slim 30 (straight ++ further))) ∨
    Seen ((under .emacs).readLine (wide (reworked ++ further))) =
      Seen ((under .emacs).readLine (slim 30 (straight ++ further))) :=
  C88_resume rfl rfl rfl rfl (served reworked) (served straight) (strokes further) rfl rfl (by decide) (by decide)
    (noEof_of (by decide)) (noEof_of (by decide)) (reworked_straight.1.trans reworked_straight.2.symm)
    (sameWords_default rfl rfl) (by decide) (by simp [slim]) (by
      intro k comp h
      simp only [strokes, List.mem_map] at h
      obtain ⟨k', hk, e⟩ := h
      cases e
      have : ∀ k ∈ further, k ≠ .ctrl 'x' ∧ k ≠ .alt 'r' := by decide +kernel
      exact this k hk)

/-- C88: undo tells two ways to the same line apart, and the place of the cursor counts. -/
theorem C88_needed :
    okAnd ((under .emacs).readLine (wide (reworked ++ [.ctrl 'x', .char '\n']))) (fun t _ => t == ['m', 'k', 'e']) = true ∧
    okAnd ((under .emacs).readLine (wide (straight ++ [.ctrl 'x', .char '\n']))) (fun t _ => t == ['m']) = true ∧
    okAnd ((under .emacs).readLine (wide (reworked ++ .ctrl 'e' :: further)))
      (fun t _ => t == ['x', 'l', 'm', 'a', 'k', 'e', 'k']) = true := by
  decide +kernel

end Liner.Props
