import Verif.Proof.ViDraft
import Verif.Props.Draft
/-
C87: a draft leaves no trace with the vi keys either, and it does not matter with which keys it was made.
-/

namespace Liner.Props
open Liner Liner.Editor M KM Liner.Wit Liner.Spec

theorem ended_akinS {κ κ' : Type} {Q : κ → κ' → Prop} {c c' : Context} {x : Out (κ × Ed) Text}
    {y : Out (κ' × Ed) Text} (h : Pair (OnQ Q AkinS) x y) :
    Stopped (c.ended x) ∨ Stopped (c'.ended y) ∨ Seen (c.ended x) = Seen (c'.ended y) := by
  rcases h with h | h | h
  · exact .inl (ended_stopped c h)
  · exact .inr (.inl (ended_stopped c' h))
  refine .inr (.inr ?_)
  cases x <;> cases y <;> try exact h.elim
  · obtain ⟨rfl, -, h⟩ := h
    rcases h with ⟨p, l, d, o, n, b, hb, ch, -, -, -, -, e⟩ | ⟨p, l, d, o, n, b, hb, ch, -, -, -, -, e⟩ <;>
      simp [Context.ended, Seen, e]
  · obtain ⟨rfl, -, h⟩ := h
    rcases h with ⟨p, l, d, o, n, b, hb, ch, -, -, -, -, e⟩ | ⟨p, l, d, o, n, b, hb, ch, -, -, -, -, e⟩ <;>
      simp [Context.ended, Seen, e]
  · rfl

/-- The keys with which a draft may be made: with Emacs those of C86; with vi, which starts in insert mode, those but
Ctrl-U (which vi ignores) and Ctrl-[ (which is Esc). -/
def sketching : KeyBindings → Key → Bool
  | .emacs => drafting
  | .vi => viDrafting

/-- C87: two calls that begin with given lines and drafts, each with its own key map, which lead to the same line, go on
alike, whatever keys that mean the same in both key maps (those of C84) are pressed then. -/
theorem C87_draft {c c' : Context} {r r' : Call} (hh : c.history = c'.history) (hf : c.fs = c'.fs)
    (d d' : List (Key × (Text → List Text)))
    (rest : List KeyMap.Input) (hi : r.input = d.map (fun k => .key k.1 k.2) ++ rest)
    (hi' : r'.input = d'.map (fun k => .key k.1 k.2) ++ rest) (hd : ∀ k ∈ d, sketching c.keyBindings k.1 = true)
    (hd' : ∀ k ∈ d', sketching c'.keyBindings k.1 = true)
    (hx : drafted (newestFrom (texts c.history)) r.buffer d = drafted (newestFrom (texts c.history)) r'.buffer d')
    (hw : SameWords r.env r'.env) (h : r.env.ttyWidth ≠ some 0) (h' : r'.env.ttyWidth ≠ some 0)
    (hk : ∀ k comp, KeyMap.Input.key k comp ∈ rest → common k = true) :
    Stopped (c.readLine r) ∨ Stopped (c'.readLine r') ∨ Seen (c.readLine r) = Seen (c'.readLine r') := by
  cases he : c.keyBindings with
  | emacs =>
    rw [he] at hd
    cases he' : c'.keyBindings with
    | emacs =>
      rw [he'] at hd'
      refine C86_draft he he' hh hf d d' rest hi hi' hd hd' hx hw h h' fun k comp hm => ⟨?_, ?_⟩ <;> rintro rfl <;>
        exact absurd (hk _ comp hm) (by decide)
    | vi =>
      rw [he'] at hd'
      unfold Context.readLine
      rw [he, he', ← hh, ← hf, hi, hi']
      dsimp only
      rw [← proposal_text] at hx
      rcases begunE_read (h := c.history) (fs := c.fs) (x := r.buffer) h r.prompt d rest hd with h1 | ⟨s1, e1, b1⟩
      · exact .inl (ended_stopped c h1)
      rcases begunV_read (h := c.history) (fs := c.fs) (x := r'.buffer) h' r'.prompt d' rest hd' with h2 | ⟨s2, e2, b2⟩
      · exact .inr (.inl (ended_stopped c' h2))
      rw [e1, e2]
      rw [← hx] at b2
      exact ended_akin (akin_loop Emacs.keyMap Vi.keyMap rest (fun k comp hm => akin_common hw comp (hk k comp hm)) _ _
        ⟨b2.1, b1.akin True b2.2⟩)
  | vi =>
    rw [he] at hd
    cases he' : c'.keyBindings with
    | emacs =>
      rw [he'] at hd'
      unfold Context.readLine
      rw [he, he', ← hh, ← hf, hi, hi']
      dsimp only
      rw [← proposal_text] at hx
      rcases begunV_read (h := c.history) (fs := c.fs) (x := r.buffer) h r.prompt d rest hd with h1 | ⟨s1, e1, b1⟩
      · exact .inl (ended_stopped c h1)
      rcases begunE_read (h := c.history) (fs := c.fs) (x := r'.buffer) h' r'.prompt d' rest hd' with h2 | ⟨s2, e2, b2⟩
      · exact .inr (.inl (ended_stopped c' h2))
      rw [e1, e2]
      rw [← hx] at b2
      rcases ended_akin (c := c') (c' := c) (akin_loop Emacs.keyMap Vi.keyMap rest
        (fun k comp hm => akin_common hw.symm comp (hk k comp hm)) ({}, s2) s1 ⟨b1.1, b2.akin True b1.2⟩) with g | g | g
      · exact .inr (.inl g)
      · exact .inl g
      · exact .inr (.inr g.symm)
    | vi =>
      rw [he'] at hd'
      unfold Context.readLine
      rw [he, he', ← hh, ← hf, hi, hi']
      dsimp only
      rw [← proposal_text] at hx
      rcases begunV_read (h := c.history) (fs := c.fs) (x := r.buffer) h r.prompt d rest hd with h1 | ⟨s1, e1, b1⟩
      · exact .inl (ended_stopped c h1)
      rcases begunV_read (h := c.history) (fs := c.fs) (x := r'.buffer) h' r'.prompt d' rest hd' with h2 | ⟨s2, e2, b2⟩
      · exact .inr (.inl (ended_stopped c' h2))
      rw [e1, e2]
      rw [← hx] at b2
      exact ended_akinS (akinS_loop Vi.keyMap Vi.keyMap rest (fun k comp hm => akinS_common hw comp (hk k comp hm)) _ _
        ⟨⟨b1.1, b2.1⟩, .inl (b1.2.akin True b2.2)⟩)

/-- C87, when both calls return a line. -/
theorem C87_line {c c' c1 c1' : Context} {r r' : Call} {t t' : Text} {o o' : List Tok} (hh : c.history = c'.history)
    (hf : c.fs = c'.fs) (d d' : List (Key × (Text → List Text))) (rest : List KeyMap.Input)
    (hi : r.input = d.map (fun k => .key k.1 k.2) ++ rest) (hi' : r'.input = d'.map (fun k => .key k.1 k.2) ++ rest)
    (hd : ∀ k ∈ d, sketching c.keyBindings k.1 = true) (hd' : ∀ k ∈ d', sketching c'.keyBindings k.1 = true)
    (hx : drafted (newestFrom (texts c.history)) r.buffer d = drafted (newestFrom (texts c.history)) r'.buffer d')
    (hw : SameWords r.env r'.env)
    (hk : ∀ k comp, KeyMap.Input.key k comp ∈ rest → common k = true)
    (h : c.readLine r = .ok t (c1, o)) (h' : c'.readLine r' = .ok t' (c1', o')) :
    t = t' ∧ c1.history = c1'.history ∧ c1.fs = c1'.fs := by
  have := C87_draft hh hf d d' rest hi hi' hd hd' hx hw (fun e => (narrow e).1 _ _ h) (fun e => (narrow e).1 _ _ h') hk
  rw [h, h'] at this
  simpa [Stopped, Seen] using this

/-! ### Concrete cases -/

/-- A draft with the vi keys: a wrong letter, End, and the rest from the entry `make`. -/
def viScribble : List Key := [.char 'm', .char 'x', .ctrl 'h', .end, .char 'a', .delete, .ctrl 'f']

example : drafted (newestFrom (texts (under .vi).history)) [] (served viScribble) = ['m', 'a', 'k', 'e'] := by
  decide +kernel

/-- Further keys that mean the same in both key maps, a search among them. -/
def afterwards : List Key := [.char 's', .home, .char 'x', .ctrl 'r', .backspace, .ctrl 'r', .right, .left, .char 'z', .char '\n']

theorem afterwards_common : ∀ k comp, KeyMap.Input.key k comp ∈ strokes afterwards → common k = true := by
  intro k comp h
  simp only [strokes, List.mem_map] at h
  obtain ⟨k', hk, e⟩ := h
  cases e
  have : ∀ k ∈ afterwards, common k = true := by decide +kernel
  exact this k hk

-- vi against vi, and Emacs against vi
example : Stopped ((under .vi).readLine (wide (viScribble ++ afterwards))) ∨
    Stopped ((under .vi).readLine (supplied ['m', 'a', 'k', 'e'] (slim 30 afterwards))) ∨
    Seen ((under .vi).readLine (wide (viScribble ++ afterwards))) =
      Seen ((under .vi).readLine (supplied ['m', 'a', 'k', 'e'] (slim 30 afterwards))) :=
  C87_draft rfl rfl (served viScribble) [] (strokes afterwards) rfl rfl (by decide) nofun (by decide +kernel)
    (sameWords_default rfl rfl) (by decide) (by simp [slim, supplied]) afterwards_common

example : Stopped ((under .emacs).readLine (wide (scribble ++ afterwards))) ∨
    Stopped ((under .vi).readLine (slim 30 (viScribble ++ afterwards))) ∨
    Seen ((under .emacs).readLine (wide (scribble ++ afterwards))) =
      Seen ((under .vi).readLine (slim 30 (viScribble ++ afterwards))) :=
  C87_draft rfl rfl (served scribble) (served viScribble) (strokes afterwards) rfl rfl (by decide) (by decide)
    (by decide +kernel) (sameWords_default rfl rfl) (by decide) (by simp [slim]) afterwards_common

-- they do return a line
example : okAnd ((under .vi).readLine (wide (viScribble ++ afterwards))) (fun t _ => t == ['z', 'm', 'a', 'k', 'e', 's']) := by
  decide +kernel
example : okAnd ((under .emacs).readLine (wide (scribble ++ afterwards))) (fun t _ => t == ['z', 'm', 'a', 'k', 'e', 's']) := by
  decide +kernel

/-- C87: outside of insert mode undo tells a given line from a typed one. -/
theorem C87_needed :
    okAnd ((under .vi).readLine (wide [.char 'a', .esc, .char 'u', .char '\n'])) (fun t _ => t == []) = true ∧
    okAnd ((under .vi).readLine (supplied ['a'] (wide [.esc, .char 'u', .char '\n']))) (fun t _ => t == ['a']) = true := by
  decide +kernel

end Liner.Props
