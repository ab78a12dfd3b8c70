import Verif.Proof.AkinRead
import Verif.Props.Elsewhere
/-
C84: keys that mean the same in both key maps.
C85: a line given at the start is as if typed.
-/

namespace Liner.Props
open Liner Liner.Editor M KM Liner.Wit

theorem ended_akin {κ κ' : Type} {Q : κ → κ' → Prop} {w : Prop} {c c' : Context} {x : Out (κ × Ed) Text}
    {y : Out (κ' × Ed) Text} (h : Pair (OnQ Q (Akin w)) x y) :
    Stopped (c.ended x) ∨ Stopped (c'.ended y) ∨ Seen (c.ended x) = Seen (c'.ended y) := by
  rcases h with h | h | h
  · exact .inl (ended_stopped c h)
  · exact .inr (.inl (ended_stopped c' h))
  refine .inr (.inr ?_)
  cases x <;> cases y <;> try exact h.elim
  · obtain ⟨rfl, -, p, l, d, o, n, b, hb, ch, -, -, -, -, e⟩ := h
    simp [Context.ended, Seen, e]
  · obtain ⟨rfl, -, p, l, d, o, n, b, hb, ch, -, -, -, -, e⟩ := h
    simp [Context.ended, Seen, e]
  · rfl

/-- C84: as long as only the keys of `common` are pressed (characters, Tab and Enter among them; Backspace, Delete, Left,
Right, Home, End; Ctrl-H, Ctrl-C, Ctrl-R, Ctrl-S, Ctrl-L) the vi key map, which starts in its insert mode, is the Emacs key map:
two calls that get the same keys return the same line or the same error, and leave the same history and the same files,
whichever of the two the context is set to. -/
theorem C84_same_keys {c c' : Context} {r r' : Call} (he : c.keyBindings = .emacs) (hv : c'.keyBindings = .vi)
    (hh : c.history = c'.history) (hf : c.fs = c'.fs) (hi : r.input = r'.input) (hb : r.buffer = r'.buffer)
    (hw : SameWords r.env r'.env) (h : r.env.ttyWidth ≠ some 0) (h' : r'.env.ttyWidth ≠ some 0)
    (hk : ∀ k comp, KeyMap.Input.key k comp ∈ r.input → common k = true) :
    Stopped (c.readLine r) ∨ Stopped (c'.readLine r') ∨ Seen (c.readLine r) = Seen (c'.readLine r') := by
  unfold Context.readLine
  rw [he, hv, ← hh, ← hf, ← hi, ← hb]
  dsimp only
  rcases begun_emacs_read (h := c.history) (fs := c.fs) (x := r.buffer) h r.prompt r.input with h1 | ⟨s1, e1, b1⟩
  · exact .inl (ended_stopped c h1)
  rcases begun_vi_read (h := c.history) (fs := c.fs) (x := r.buffer) h' r'.prompt r.input with h2 | ⟨s2, e2, b2⟩
  · exact .inr (.inl (ended_stopped c' h2))
  rw [e1, e2]
  exact ended_akin (akin_loop Emacs.keyMap Vi.keyMap r.input (fun k comp hm => akin_common hw comp (hk k comp hm)) _ _
    ⟨rfl, b1.akin True b2⟩)

/-- C85: with the Emacs keys, a line given to `read_line_with_init_buffer` is as if it had been typed (all of it, or the
end of it): whatever is pressed then, apart from undo and revert. -/
theorem C85_as_if_typed {c c' : Context} {r r' : Call} (he : c.keyBindings = .emacs) (he' : c'.keyBindings = .emacs)
    (hh : c.history = c'.history) (hf : c.fs = c'.fs) (ys : List (Char × (Text → List Text)))
    (hi : r.input = ys.map (fun y => .key (.char y.1) y.2) ++ r'.input) (hb : r'.buffer = r.buffer ++ ys.map Prod.fst)
    (hy : ∀ y ∈ ys, y.1 ≠ '\t' ∧ y.1 ≠ '\n') (hw : SameWords r.env r'.env) (h : r.env.ttyWidth ≠ some 0)
    (h' : r'.env.ttyWidth ≠ some 0)
    (hk : ∀ k comp, KeyMap.Input.key k comp ∈ r'.input → k ≠ .ctrl 'x' ∧ k ≠ .alt 'r') :
    Stopped (c.readLine r) ∨ Stopped (c'.readLine r') ∨ Seen (c.readLine r) = Seen (c'.readLine r') := by
  unfold Context.readLine
  rw [he, he', ← hh, ← hf, hi, hb]
  dsimp only
  rcases begun_emacs_read (h := c.history) (fs := c.fs) (x := r.buffer) h r.prompt
    (ys.map (fun y => .key (.char y.1) y.2) ++ r'.input) with h1 | ⟨s1, e1, b1⟩
  · exact .inl (ended_stopped c h1)
  rcases begun_emacs_read (h := c.history) (fs := c.fs) (x := r.buffer ++ ys.map Prod.fst) h' r'.prompt r'.input with
    h2 | ⟨s2, e2, b2⟩
  · exact .inr (.inl (ended_stopped c' h2))
  rw [e1, e2]
  exact ended_akin (Q := Eq) (begun_loop hw r'.input hk ys r.buffer s1 b1 b2 hy)

/-- The words of the crate: they are those of the text. -/
theorem sameWords_default {E E' : Env} (h : E.words = getBufferWords) (h' : E'.words = getBufferWords) : SameWords E E' := by
  intro b b' e
  rw [h, h']
  unfold getBufferWords
  rw [e]

/-- C84, when both calls return a line: it is the same, and so are the histories and the files. -/
theorem C84_line {c c' c1 c1' : Context} {r r' : Call} {t t' : Text} {o o' : List Tok} (he : c.keyBindings = .emacs)
    (hv : c'.keyBindings = .vi) (hh : c.history = c'.history) (hf : c.fs = c'.fs) (hi : r.input = r'.input)
    (hb : r.buffer = r'.buffer) (hw : SameWords r.env r'.env)
    (hk : ∀ k comp, KeyMap.Input.key k comp ∈ r.input → common k = true)
    (h : c.readLine r = .ok t (c1, o)) (h' : c'.readLine r' = .ok t' (c1', o')) :
    t = t' ∧ c1.history = c1'.history ∧ c1.fs = c1'.fs := by
  have := C84_same_keys he hv hh hf hi hb hw (fun e => (narrow e).1 _ _ h) (fun e => (narrow e).1 _ _ h') hk
  rw [h, h'] at this
  simpa [Stopped, Seen] using this

/-- C85, when both calls return a line. -/
theorem C85_line {c c' c1 c1' : Context} {r r' : Call} {t t' : Text} {o o' : List Tok} (he : c.keyBindings = .emacs)
    (he' : c'.keyBindings = .emacs) (hh : c.history = c'.history) (hf : c.fs = c'.fs)
    (ys : List (Char × (Text → List Text))) (hi : r.input = ys.map (fun y => .key (.char y.1) y.2) ++ r'.input)
    (hb : r'.buffer = r.buffer ++ ys.map Prod.fst) (hy : ∀ y ∈ ys, y.1 ≠ '\t' ∧ y.1 ≠ '\n') (hw : SameWords r.env r'.env)
    (hk : ∀ k comp, KeyMap.Input.key k comp ∈ r'.input → k ≠ .ctrl 'x' ∧ k ≠ .alt 'r')
    (h : c.readLine r = .ok t (c1, o)) (h' : c'.readLine r' = .ok t' (c1', o')) :
    t = t' ∧ c1.history = c1'.history ∧ c1.fs = c1'.fs := by
  have := C85_as_if_typed he he' hh hf ys hi hb hy hw (fun e => (narrow e).1 _ _ h) (fun e => (narrow e).1 _ _ h') hk
  rw [h, h'] at this
  simpa [Stopped, Seen] using this

/-! ### Concrete cases -/

/-- The books of `books`, with either key map. -/
def under (k : KeyBindings) : Context := { books with keyBindings := k }

/-- Typing, Tab twice, corrections, a search and its end. -/
def plain : List Key :=
  chars "say c" ++ [.char '\t', .char '\t', .left, .backspace, .char 'o', .home, .delete, .ctrl 'r', .ctrl 's', .right,
    .char '\n']

theorem plain_common : ∀ k comp, KeyMap.Input.key k comp ∈ (wide plain).input → common k = true := by
  intro k comp h
  simp only [wide, strokes, List.mem_map] at h
  obtain ⟨k', hk, e⟩ := h
  cases e
  have : ∀ k ∈ plain, common k = true := by decide +kernel
  exact this k hk

-- C84: Emacs on one terminal, vi on another one
example : okAnd ((under .emacs).readLine (wide plain)) (fun t _ => t == ['a', 'y', ' ', 'o', 'a']) := by decide +kernel
example : okAnd ((under .vi).readLine (slim 30 plain)) (fun t _ => t == ['a', 'y', ' ', 'o', 'a']) := by decide +kernel
example : Stopped ((under .emacs).readLine (wide plain)) ∨ Stopped ((under .vi).readLine (slim 30 plain)) ∨
    Seen ((under .emacs).readLine (wide plain)) = Seen ((under .vi).readLine (slim 30 plain)) :=
  C84_same_keys rfl rfl rfl rfl rfl rfl (sameWords_default rfl rfl) (by decide)
    (by simp [slim]) plain_common

/-- C84: the keys that are left out make a difference (Ctrl-A, here; it is a character of no effect to vi). -/
theorem C84_needed : okAnd ((under .emacs).readLine (wide [.char 'l', .ctrl 'a', .char 'x', .char '\n'])) (fun t _ => t == ['x', 'l']) = true ∧
    okAnd ((under .vi).readLine (wide [.char 'l', .ctrl 'a', .char 'x', .char '\n'])) (fun t _ => t == ['l', 'x']) = true := by
  decide +kernel

/-- The rest of a line: Up, a word back, a search. -/
def further : List Key := [.char 'k', .up, .down, .alt 'b', .char 'x', .ctrl 'r', .char 'l', .right, .char '\n']

/-- Given `x`. -/
def supplied (x : Text) (r : Call) : Call := { r with buffer := x }

-- C85: `m` given and `a` typed, or `ma` given
example : okAnd ((under .emacs).readLine (supplied ['m'] (wide (.char 'a' :: further)))) (fun t _ => t == ['x', 'l', 'm', 'a', 'k']) := by
  decide +kernel
example : okAnd ((under .emacs).readLine (supplied ['m', 'a'] (slim 30 further))) (fun t _ => t == ['x', 'l', 'm', 'a', 'k']) := by
  decide +kernel

example : Stopped ((under .emacs).readLine (supplied ['m'] (wide (.char 'a' :: further)))) ∨
    Stopped ((under .emacs).readLine (supplied ['m', 'a'] (slim 30 further))) ∨
    Seen ((under .emacs).readLine (supplied ['m'] (wide (.char 'a' :: further)))) =
      Seen ((under .emacs).readLine (supplied ['m', 'a'] (slim 30 further))) :=
  C85_as_if_typed rfl rfl rfl rfl [('a', fun _ => [['c', 'a', 'r'], ['c', 'a', 't']])] rfl rfl (by decide)
    (sameWords_default rfl rfl) (by decide) (by simp [slim, supplied]) (by
      intro k comp h
      simp only [slim, supplied, strokes, List.mem_map] at h
      obtain ⟨k', hk, e⟩ := h
      cases e
      have : ∀ k ∈ further, k ≠ .ctrl 'x' ∧ k ≠ .alt 'r' := by decide +kernel
      exact this k hk)

/-- C85: undo makes a difference: what was given stays. -/
theorem C85_needed : okAnd ((under .emacs).readLine (wide [.char 'l', .ctrl 'x', .char '\n'])) (fun t _ => t == []) = true ∧
    okAnd ((under .emacs).readLine (supplied ['l'] (wide [.ctrl 'x', .char '\n']))) (fun t _ => t == ['l']) = true := by
  decide +kernel

end Liner.Props
