import Verif.Proof.Elsewhere
import Verif.Props.Witness
/-
C82: what a call returns does not depend on the terminal.
-/

namespace Liner.Props
open Liner Liner.Editor M KM Liner.Wit

/-- The two calls get the same keys and the same completions, start with the same line, divide lines into words in the same
way and classify characters in the same way.  The prompt, the terminal (its size, which writes fail), the widths of
characters and the colours may differ. -/
structure SameKeys (r r' : Call) : Prop where
  input : r.input = r'.input
  buffer : r.buffer = r'.buffer
  cc : r.env.cc = r'.env.cc
  words : r.env.words = r'.env.words

/-- The contexts have the same history, the same files and the same key map. -/
structure SameBooks (c c' : Context) : Prop where
  history : c.history = c'.history
  fs : c.fs = c'.fs
  keys : c.keyBindings = c'.keyBindings

/-- The terminal put an end to the call: an I/O error, or a panic while redrawing. -/
def Stopped : Out (Context × List Tok) Text → Prop
  | .ok _ _ => False
  | .err e _ => e = .io
  | .panic w => w = .redraw ∨ w = .rows ∨ w = .ioUnwrap

/-- What the caller sees, apart from the screen: the line or the error, the history and the files. -/
def Seen : Out (Context × List Tok) Text → Option (Except IoErr Text × History × FS)
  | .ok t (c, _) => some (.ok t, c.history, c.fs)
  | .err e (c, _) => some (.error e, c.history, c.fs)
  | .panic _ => none

theorem ended_stopped {κ : Type} (c : Context) {x : Out (κ × Ed) Text} (h : Lost x) : Stopped (c.ended x) := by
  cases x with
  | ok => exact h
  | err => exact h
  | panic w =>
    cases w
    · exact absurd rfl h
    · exact .inl rfl
    · exact .inr (.inl rfl)
    · exact .inr (.inr rfl)

theorem ended_pair {κ : Type} {c c' : Context} {x y : Out (κ × Ed) Text} (h : Pair (OnK Alike) x y) :
    Stopped (c.ended x) ∨ Stopped (c'.ended y) ∨ Seen (c.ended x) = Seen (c'.ended y) := by
  rcases h with h | h | h
  · exact .inl (ended_stopped c h)
  · exact .inr (.inl (ended_stopped c' h))
  refine .inr (.inr ?_)
  cases x <;> cases y <;> try exact h.elim
  · obtain ⟨rfl, -, p, l, d, o, n, e⟩ := h
    simp [Context.ended, Seen, e]
  · obtain ⟨rfl, -, p, l, d, o, n, e⟩ := h
    simp [Context.ended, Seen, e]
  · rfl

/-- C82: two calls that get the same keys return the same line or the same error, and leave the same history and the same
files, whatever the two terminals and prompts are; unless an I/O error or a panic while redrawing puts an end to one of
them.  (A terminal that says to be 0 columns wide when the editor starts makes it panic at once.) -/
theorem C82_outcome {c c' : Context} {r r' : Call} (hc : SameBooks c c') (hr : SameKeys r r')
    (h : r.env.ttyWidth ≠ some 0) (h' : r'.env.ttyWidth ≠ some 0) :
    Stopped (c.readLine r) ∨ Stopped (c'.readLine r') ∨ Seen (c.readLine r) = Seen (c'.readLine r') := by
  have hs : ∀ {κ : Type} (k : κ), OnK Alike (k, initial r.prompt c.history c.fs (.ofText r.buffer))
      (k, initial r'.prompt c'.history c'.fs (.ofText r'.buffer)) := by
    intro κ k
    rw [hc.history, hc.fs, hr.buffer]
    exact ⟨rfl, _, _, _, _, _, rfl⟩
  unfold Context.readLine
  rw [← hc.keys]
  dsimp only
  have H := screen_ops hr.cc hr.words
  cases c.keyBindings with
  | emacs =>
    have := screen_readLine hr.cc hr.words Emacs.keyMap h h' (sim_pure ()) (screen_emacs hr.cc hr.words)
      r.prompt r'.prompt r.input
    rw [← hr.input]
    exact ended_pair (this _ _ (hs _))
  | vi =>
    have := screen_readLine hr.cc hr.words Vi.keyMap h h' (Vi.sim_init H.toOps) (Vi.sim_core H)
      r.prompt r'.prompt r.input
    rw [← hr.input]
    exact ended_pair (this _ _ (hs _))

/-- A terminal of 0 columns. -/
theorem narrow {c : Context} {r : Call} (h : r.env.ttyWidth = some 0) :
    (∀ t s, c.readLine r ≠ .ok t s) ∧ ∀ e s, c.readLine r = .err e s → e = .io := by
  have key : ∀ {κ : Type} (km : KeyMap κ) (k : κ × Ed),
      (∃ s, km.readLine r.env r.prompt r.input k = .err .io s) ∨ km.readLine r.env r.prompt r.input k = .panic .op := by
    intro κ km k
    have hs : (∃ s, start r.env r.prompt k.2 = .err .io s) ∨ start r.env r.prompt k.2 = .panic .op := by
      unfold start
      show (∃ s, M.bind (writeTerm _ _) _ _ = _) ∨ M.bind (writeTerm _ _) _ _ = _
      unfold M.bind writeTerm
      split
      · rename_i h1
        split at h1
        · dsimp only
          rw [h]
          exact .inr rfl
        · cases h1
      · rename_i h1
        split at h1
        · cases h1
        · cases h1
          exact .inl ⟨_, rfl⟩
      · rename_i h1
        split at h1 <;> cases h1
    unfold KeyMap.readLine
    show (∃ s, M.bind (ed _) _ _ = _) ∨ M.bind (ed _) _ _ = _
    unfold M.bind ed M.zoom
    rcases hs with ⟨s, e⟩ | e
    · rw [e]; exact .inl ⟨_, rfl⟩
    · rw [e]; exact .inr rfl
  unfold Context.readLine
  dsimp only
  cases c.keyBindings <;> dsimp only <;>
    (rcases key _ _ with ⟨s, e⟩ | e <;> rw [e] <;> refine ⟨?_, ?_⟩ <;> intros <;>
      simp_all [Context.ended])

/-- C82, when both calls return a line: it is the same, and so are the histories and the files. -/
theorem C82_line {c c' c1 c1' : Context} {r r' : Call} {t t' : Text} {o o' : List Tok} (hc : SameBooks c c')
    (hr : SameKeys r r') (h : c.readLine r = .ok t (c1, o)) (h' : c'.readLine r' = .ok t' (c1', o')) :
    t = t' ∧ c1.history = c1'.history ∧ c1.fs = c1'.fs := by
  have := C82_outcome hc hr (fun e => (narrow e).1 _ _ h) (fun e => (narrow e).1 _ _ h')
  rw [h, h'] at this
  simpa [Stopped, Seen] using this

/-- C82, when one of them returns a line: the other one returns the same line, or was stopped by its terminal. -/
theorem C82_returns {c c' c1 : Context} {r r' : Call} {t : Text} {o : List Tok} (hc : SameBooks c c')
    (hr : SameKeys r r') (h : c.readLine r = .ok t (c1, o)) (h' : r'.env.ttyWidth ≠ some 0) :
    Stopped (c'.readLine r') ∨
      ∃ c1' o', c'.readLine r' = .ok t (c1', o') ∧ c1'.history = c1.history ∧ c1'.fs = c1.fs := by
  have := C82_outcome hc hr (fun e => (narrow e).1 _ _ h) h'
  rw [h] at this
  rcases this with h1 | h1 | h1
  · exact h1.elim
  · exact .inl h1
  · refine .inr ?_
    cases hy : c'.readLine r' with
    | ok t' s =>
      rw [hy] at h1
      obtain ⟨rfl, h2, h3⟩ : t = t' ∧ c1.history = s.1.history ∧ c1.fs = s.1.fs := by simpa [Seen] using h1
      exact ⟨s.1, s.2, rfl, h2.symm, h3.symm⟩
    | err e s => rw [hy] at h1; simp [Seen] at h1
    | panic w => rw [hy] at h1; simp [Seen] at h1

theorem read_same {c c' : Context} {r r' : Call} (hc : SameBooks c c') (hr : SameKeys r r')
    (h : (∃ t s, c.readLine r = .ok t s) ∨ ∃ e s, c.readLine r = .err e s ∧ e ≠ .io)
    (h' : (∃ t s, c'.readLine r' = .ok t s) ∨ ∃ e s, c'.readLine r' = .err e s ∧ e ≠ .io) :
    Seen (c.readLine r) = Seen (c'.readLine r') := by
  have n : ∀ {c : Context} {r : Call}, ((∃ t s, c.readLine r = .ok t s) ∨ ∃ e s, c.readLine r = .err e s ∧ e ≠ .io) →
      ¬ Stopped (c.readLine r) ∧ r.env.ttyWidth ≠ some 0 := by
    intro c r h
    rcases h with ⟨t, s, h⟩ | ⟨e, s, h, he⟩
    · exact ⟨by rw [h]; exact id, fun e => (narrow e).1 _ _ h⟩
    · exact ⟨by rw [h]; exact he, fun e => he ((narrow e).2 _ _ h)⟩
  rcases C82_outcome hc hr (n h).2 (n h').2 with h1 | h1 | h1
  · exact absurd h1 (n h).1
  · exact absurd h1 (n h').1
  · exact h1

/-- C82 for a whole application: two runs with the same keys, on any terminals and with any prompts and answers, read the
same lines and leave the same history and the same files, if neither of them is stopped. -/
theorem C82_application : ∀ {rs rs' : List Round} {c c' c1 c1' : Context} {ls ls' : List Text} {o o' : List Tok},
    List.Forall₂ (fun a b => a.keys = b.keys ∧ SameKeys a.call b.call) rs rs' → c.history = c'.history → c.fs = c'.fs →
    converse rs c = some (ls, c1, o) → converse rs' c' = some (ls', c1', o') →
    ls = ls' ∧ c1.history = c1'.history ∧ c1.fs = c1'.fs := by
  intro rs rs' c c' c1 c1' ls ls' o o' hrs
  induction hrs generalizing c c' c1 c1' ls ls' o o' with
  | nil =>
    intro hh hf h h'
    cases h
    cases h'
    exact ⟨rfl, hh, hf⟩
  | @cons r r' rs rs' hr _ ih =>
    intro hh hf h h'
    have hb : SameBooks { c with keyBindings := r.keys } { c' with keyBindings := r'.keys } := ⟨hh, hf, hr.1⟩
    unfold converse at h h'
    cases hx : { c with keyBindings := r.keys }.readLine r.call with
    | panic w => rw [hx] at h; cases h
    | ok t s =>
      rw [hx] at h
      cases hy : { c' with keyBindings := r'.keys }.readLine r'.call with
      | panic w => rw [hy] at h'; cases h'
      | ok t' s' =>
        rw [hy] at h'
        obtain ⟨rfl, g1, g2⟩ := C82_line hb hr.2 hx hy
        simp only [Option.map_eq_some_iff] at h h'
        obtain ⟨x, ex, hx'⟩ := h
        obtain ⟨y, ey, hy'⟩ := h'
        have hp : ((s.1.push t).history, (s.1.push t).fs) = ((s'.1.push t).history, (s'.1.push t).fs) := by
          unfold Context.push
          rw [g1, g2]
        have := ih (congrArg Prod.fst hp) (congrArg Prod.snd hp) ex ey
        cases hx'
        cases hy'
        exact ⟨by rw [this.1], this.2⟩
      | err e s' =>
        rw [hy] at h'
        have he : e ≠ .io := by rintro rfl; cases h'
        have := read_same hb hr.2 (.inl ⟨_, _, hx⟩) (.inr ⟨_, _, hy, he⟩)
        rw [hx, hy] at this
        simp [Seen] at this
    | err e s =>
      rw [hx] at h
      have he : e ≠ .io := by rintro rfl; cases h
      cases hy : { c' with keyBindings := r'.keys }.readLine r'.call with
      | panic w => rw [hy] at h'; cases h'
      | ok t' s' =>
        have := read_same hb hr.2 (.inr ⟨_, _, hx, he⟩) (.inl ⟨_, _, hy⟩)
        rw [hx, hy] at this
        simp [Seen] at this
      | err e' s' =>
        rw [hy] at h'
        have he' : e' ≠ .io := by rintro rfl; cases h'
        have := read_same hb hr.2 (.inr ⟨_, _, hx, he⟩) (.inr ⟨_, _, hy, he'⟩)
        rw [hx, hy] at this
        obtain ⟨rfl, g1, g2⟩ : e = e' ∧ s.1.history = s'.1.history ∧ s.1.fs = s'.1.fs := by
          simpa [Seen] using this
        cases e with
        | io => exact absurd rfl he
        | interrupted =>
          simp only [Option.map_eq_some_iff] at h h'
          obtain ⟨x, ex, hx'⟩ := h
          obtain ⟨y, ey, hy'⟩ := h'
          have := ih g1 g2 ex ey
          cases hx'
          cases hy'
          exact this
        | unexpectedEof =>
          cases h
          cases h'
          exact ⟨rfl, g1, g2⟩

/-! ### Concrete cases -/

/-- Keys at their time, with a completer that knows two words. -/
def strokes (keys : List Key) : List KeyMap.Input := keys.map fun k => .key k fun _ => [['c', 'a', 'r'], ['c', 'a', 't']]

/-- A call on a terminal of 80 columns with a short prompt. -/
def wide (keys : List Key) : Call := { env := Tests.env, prompt := { prompt := ['>', ' '] }, input := strokes keys }

/-- The same keys on a terminal of `n` columns, with a mode indicator. -/
def slim (n : Nat) (keys : List Key) : Call :=
  { env := { Tests.env with termSize := fun _ => some n, ttyWidth := some n, closure := some fun t => fgRed ++ t }
    prompt := { prompt := ['$', ' '], viStatus := some {} }, input := strokes keys }

theorem sameKeys (n : Nat) (keys : List Key) : SameKeys (wide keys) (slim n keys) := ⟨rfl, rfl, rfl, rfl⟩

/-- Typing, Tab, vi commands, Up and an incremental search. -/
def mixed : List Key := chars "ls c" ++ [.char '\t', .char '\t', .esc] ++ chars "bx" ++ [.ctrl 'r', .char 'i', .char 'a', .char '\n']

def books : Context := { history := hist ["make", "ls aat b"], fs := Tests.noFiles, keyBindings := .vi }

-- both terminals let the calls through, and both return a line
example : okAnd (books.readLine (wide mixed)) fun t _ => t == "ls aat b".toList := by decide +kernel
example : okAnd (books.readLine (slim 40 mixed)) fun t _ => t == "ls aat b".toList := by decide +kernel

/-- C82, the exception is there: the keys that return a line on a wide terminal make the editor panic on a narrow one with a
mode indicator. -/
theorem C82_exception : ∃ (c : Context) (r r' : Call), SameKeys r r' ∧ (∃ t s, c.readLine r = .ok t s) ∧
    c.readLine r' = .panic .redraw := by
  refine ⟨books, wide [.char '\\', .char '\n', .ctrl 'r', .char '\n'], slim 12 [.char '\\', .char '\n', .ctrl 'r', .char '\n'],
    sameKeys _ _, ?_, of_panics (by decide +kernel)⟩
  obtain ⟨t, s, h, -⟩ := of_okAnd (o := books.readLine (wide [.char '\\', .char '\n', .ctrl 'r', .char '\n'])) (p := fun _ _ => true)
    (by decide +kernel)
  exact ⟨t, s, h⟩

end Liner.Props
