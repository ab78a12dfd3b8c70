import Verif.Proof.BlindVi
import Verif.Props.Elsewhere
/-
C83: keys that do not look at the history return the same line whatever the history.
-/

namespace Liner.Props
open Liner Liner.Editor M KM Liner.Wit

/-- The keys that show or take something from the history.  With the vi keys `k` counts everywhere, also as a letter of the
text (see `C83_letter`). -/
def heeds : KeyBindings → List Key
  | .emacs => [.right, .ctrl 'f', .ctrl 'r', .ctrl 's', .up, .ctrl 'p', .alt '<', .alt '.']
  | .vi => [.right, .ctrl 'f', .ctrl 'r', .ctrl 's', .up, .char 'k']

/-- None of them is typed. -/
def Heedless (b : KeyBindings) (r : Call) : Prop := ∀ k comp, KeyMap.Input.key k comp ∈ r.input → k ∉ heeds b

/-- What the caller gets: the line or the error. -/
def Said : Out (Context × List Tok) Text → Option (Except IoErr Text)
  | .ok t _ => some (.ok t)
  | .err e _ => some (.error e)
  | .panic _ => none

theorem ended_said {κ : Type} {P : κ → Prop} {c c' : Context} {x y : Out (κ × Ed) Text} (h : Pair (OnP P Fellow) x y) :
    Stopped (c.ended x) ∨ Stopped (c'.ended y) ∨ Said (c.ended x) = Said (c'.ended y) := by
  rcases h with h | h | h
  · exact .inl (ended_stopped c h)
  · exact .inr (.inl (ended_stopped c' h))
  refine .inr (.inr ?_)
  cases x <;> cases y <;> try exact h.elim
  · obtain ⟨rfl, -⟩ := h
    rfl
  · obtain ⟨rfl, -⟩ := h
    rfl
  · rfl

theorem fellow_initial (p p' : Prompt) (h h' : History) (fs fs' : FS) (b : Buffer) :
    Fellow (initial p h fs b) (initial p' h' fs' b) := ⟨rfl, rfl, rfl, rfl, rfl, rfl, rfl, rfl, rfl, rfl⟩

theorem heeds_takes {b : KeyBindings} {k : Key} (h : k ∉ heeds b) : takes k = false := by
  cases b <;> simp [heeds] at h <;> simp [takes, h]

theorem translate_eq {k x : Key} (h : KeyMap.translate k = x) (hx : x ≠ .backspace) : k = x := by
  unfold KeyMap.translate at h
  split at h
  · exact absurd h.symm hx
  · exact h

/-- C83: two calls that get the same keys, none of which shows or takes something from the history, return the same line or
the same error, whatever the two histories, the files, the terminals and the prompts are; unless an I/O error or a panic
while redrawing puts an end to one of them. -/
theorem C83_outcome {c c' : Context} {r r' : Call} (hb : c.keyBindings = c'.keyBindings) (hr : SameKeys r r')
    (hk : Heedless c.keyBindings r) (h : r.env.ttyWidth ≠ some 0) (h' : r'.env.ttyWidth ≠ some 0) :
    Stopped (c.readLine r) ∨ Stopped (c'.readLine r') ∨ Said (c.readLine r) = Said (c'.readLine r') := by
  have hs := fellow_initial r.prompt r'.prompt c.history c'.history c.fs c'.fs (.ofText r.buffer)
  have H := blind_ops hr.cc hr.words
  have hd := blind_down hr.cc hr.words
  unfold Context.readLine
  rw [← hb, ← hr.buffer, ← hr.input]
  dsimp only
  cases hm : c.keyBindings with
  | emacs =>
    rw [hm] at hk
    refine ended_said (P := fun _ => True) (blind_readLine hr.cc hr.words Emacs.keyMap (fun _ => True) h h' (sim_pure ())
      r.prompt r'.prompt (input := r.input) (fun k comp hin => ?_) _ _ ⟨⟨rfl, hs⟩, trivial⟩)
    have hn := hk k comp hin
    refine ⟨heeds_takes hn, simP_of (Emacs.sim_core H _ fun hl => ?_)⟩
    have hl : KeyMap.translate k = .up ∨ KeyMap.translate k = .down ∨ KeyMap.translate k = .ctrl 'p' ∨
        KeyMap.translate k = .ctrl 'n' ∨ KeyMap.translate k = .alt '<' ∨ KeyMap.translate k = .alt '.' := by
      simpa [Emacs.looks] using hl
    rcases hl with e | e | e | e | e | e
    · exact absurd (translate_eq e nofun) (by rintro rfl; simp [heeds] at hn)
    · rw [e]; exact sim_bind (sim_modK _) fun _ => sim_ed hd
    · exact absurd (translate_eq e nofun) (by rintro rfl; simp [heeds] at hn)
    · rw [e]; exact sim_bind (sim_modK _) fun _ => sim_ed hd
    · exact absurd (translate_eq e nofun) (by rintro rfl; simp [heeds] at hn)
    · exact absurd (translate_eq e nofun) (by rintro rfl; simp [heeds] at hn)
  | vi =>
    rw [hm] at hk
    refine ended_said (P := Vi.Shut) (blind_readLine hr.cc hr.words Vi.keyMap Vi.Shut h h' (Vi.shut_init H)
      r.prompt r'.prompt (input := r.input) (fun k comp hin => ?_) _ _ ⟨⟨rfl, hs⟩, ?_⟩)
    · have hn := hk k comp hin
      refine ⟨heeds_takes hn, Vi.shut_core H hd ?_⟩
      by_contra hl
      have hl : KeyMap.translate k = .up ∨ KeyMap.translate k = .char 'k' := by
        simpa [Vi.looks, Classical.or_iff_not_imp_left] using hl
      rcases hl with e | e
      · exact absurd (translate_eq e nofun) (by rintro rfl; simp [heeds] at hn)
      · exact absurd (translate_eq e nofun) (by rintro rfl; simp [heeds] at hn)
    · exact ⟨fun k h => (by cases h), fun k h => (by cases h), fun k h => (by cases h; rfl), fun k h => (by cases h)⟩

/-- C83, when both calls return a line. -/
theorem C83_line {c c' c1 c1' : Context} {r r' : Call} {t t' : Text} {o o' : List Tok}
    (hb : c.keyBindings = c'.keyBindings) (hr : SameKeys r r') (hk : Heedless c.keyBindings r)
    (h : c.readLine r = .ok t (c1, o)) (h' : c'.readLine r' = .ok t' (c1', o')) : t = t' := by
  have := C83_outcome hb hr hk (fun e => (narrow e).1 _ _ h) (fun e => (narrow e).1 _ _ h')
  rw [h, h'] at this
  simpa [Stopped, Said] using this

/-- C83, against no history at all: a call with these keys that returns a line would return it also with an empty history,
unless its terminal stops it. -/
theorem C83_empty {c c1 : Context} {r : Call} {t : Text} {o : List Tok} (hk : Heedless c.keyBindings r)
    (h : c.readLine r = .ok t (c1, o)) :
    Stopped ({ c with history := .new }.readLine r) ∨ ∃ s, { c with history := .new }.readLine r = .ok t s := by
  have hw : r.env.ttyWidth ≠ some 0 := fun e => (narrow e).1 _ _ h
  have := C83_outcome (c := c) (c' := { c with history := .new }) (r' := r) rfl ⟨rfl, rfl, rfl, rfl⟩ hk hw hw
  rw [h] at this
  rcases this with h1 | h1 | h1
  · exact h1.elim
  · exact .inl h1
  · refine .inr ?_
    cases hy : { c with history := .new }.readLine r with
    | ok t' s =>
      rw [hy] at h1
      obtain rfl : t = t' := by simpa [Said] using h1
      exact ⟨s, rfl⟩
    | err e s => rw [hy] at h1; simp [Said] at h1
    | panic w => rw [hy] at h1; simp [Said] at h1

theorem said_same {c c' : Context} {r r' : Call} (hb : c.keyBindings = c'.keyBindings) (hr : SameKeys r r')
    (hk : Heedless c.keyBindings r)
    (h : (∃ t s, c.readLine r = .ok t s) ∨ ∃ e s, c.readLine r = .err e s ∧ e ≠ .io)
    (h' : (∃ t s, c'.readLine r' = .ok t s) ∨ ∃ e s, c'.readLine r' = .err e s ∧ e ≠ .io) :
    Said (c.readLine r) = Said (c'.readLine r') := by
  have n : ∀ {c : Context} {r : Call}, ((∃ t s, c.readLine r = .ok t s) ∨ ∃ e s, c.readLine r = .err e s ∧ e ≠ .io) →
      ¬ Stopped (c.readLine r) ∧ r.env.ttyWidth ≠ some 0 := by
    intro c r h
    rcases h with ⟨t, s, h⟩ | ⟨e, s, h, he⟩
    · exact ⟨by rw [h]; exact id, fun e => (narrow e).1 _ _ h⟩
    · exact ⟨by rw [h]; exact he, fun e => he ((narrow e).2 _ _ h)⟩
  rcases C83_outcome hb hr hk (n h).2 (n h').2 with h1 | h1 | h1
  · exact absurd h1 (n h).1
  · exact absurd h1 (n h').1
  · exact h1

/-- C83 for a whole application: two runs that get the same such keys read the same lines, whatever histories they begin
with, if neither of them is stopped. -/
theorem C83_application : ∀ {rs rs' : List Round} {c c' c1 c1' : Context} {ls ls' : List Text} {o o' : List Tok},
    List.Forall₂ (fun a b => a.keys = b.keys ∧ SameKeys a.call b.call ∧ Heedless a.keys a.call) rs rs' →
    converse rs c = some (ls, c1, o) → converse rs' c' = some (ls', c1', o') → ls = ls' := by
  intro rs rs' c c' c1 c1' ls ls' o o' hrs
  induction hrs generalizing c c' c1 c1' ls ls' o o' with
  | nil =>
    intro h h'
    cases h
    cases h'
    rfl
  | @cons r r' rs rs' hr _ ih =>
    intro h h'
    have same := @said_same { c with keyBindings := r.keys } { c' with keyBindings := r'.keys } r.call r'.call hr.1 hr.2.1
      hr.2.2
    unfold converse at h h'
    cases hx : { c with keyBindings := r.keys }.readLine r.call with
    | panic w => rw [hx] at h; cases h
    | ok t s =>
      rw [hx] at h same
      cases hy : { c' with keyBindings := r'.keys }.readLine r'.call with
      | panic w => rw [hy] at h'; cases h'
      | ok t' s' =>
        rw [hy] at h' same
        obtain rfl : t = t' := by simpa [Said] using same (.inl ⟨_, _, rfl⟩) (.inl ⟨_, _, rfl⟩)
        simp only [Option.map_eq_some_iff] at h h'
        obtain ⟨x, ex, hx'⟩ := h
        obtain ⟨y, ey, hy'⟩ := h'
        have := ih ex ey
        cases hx'
        cases hy'
        rw [this]
      | err e s' =>
        rw [hy] at h' same
        have he : e ≠ .io := by rintro rfl; cases h'
        simpa [Said] using same (.inl ⟨_, _, rfl⟩) (.inr ⟨_, _, rfl, he⟩)
    | err e s =>
      rw [hx] at h same
      have he : e ≠ .io := by rintro rfl; cases h
      cases hy : { c' with keyBindings := r'.keys }.readLine r'.call with
      | panic w => rw [hy] at h'; cases h'
      | ok t' s' =>
        rw [hy] at same
        simpa [Said] using same (.inr ⟨_, _, rfl, he⟩) (.inl ⟨_, _, rfl⟩)
      | err e' s' =>
        rw [hy] at h' same
        have he' : e' ≠ .io := by rintro rfl; cases h'
        obtain rfl : e = e' := by simpa [Said] using same (.inr ⟨_, _, rfl, he⟩) (.inr ⟨_, _, rfl, he'⟩)
        cases e with
        | io => exact absurd rfl he
        | interrupted =>
          simp only [Option.map_eq_some_iff] at h h'
          obtain ⟨x, ex, hx'⟩ := h
          obtain ⟨y, ey, hy'⟩ := h'
          have := ih ex ey
          cases hx'
          cases hy'
          exact this
        | unexpectedEof =>
          cases h
          cases h'
          rfl

/-! ### Concrete cases -/

/-- A context with this history. -/
def shelf (b : KeyBindings) (h : List String) : Context := { history := hist h, fs := Tests.noFiles, keyBindings := b }

/-- Typing, Tab, Down, undoing, word commands. -/
def edits : List Key := chars "ls c" ++ [.char '\t', .char '\t', .down, .left, .backspace, .esc] ++ chars "bx.u" ++ [.char '\n']

theorem edits_heedless : Heedless .vi (wide edits) := by
  intro k comp h
  have h : KeyMap.Input.key k comp ∈ edits.map fun k => .key k fun _ => [['c', 'a', 'r'], ['c', 'a', 't']] := h
  rw [List.mem_map] at h
  obtain ⟨a, ha, e⟩ := h
  cases e
  have : ∀ a ∈ edits, a ∉ heeds .vi := by decide
  exact this _ ha

example : okAnd ((shelf .vi ["ls cat b"]).readLine (wide edits)) fun t _ => t == "s a".toList := by decide +kernel
example : okAnd ((shelf .vi []).readLine (wide edits)) fun t _ => t == "s a".toList := by decide +kernel

theorem said_ok {o : Out (Context × List Tok) Text} {t : Text} (h : okAnd o (fun x _ => x == t) = true) :
    Said o = some (.ok t) := by
  obtain ⟨a, s, rfl, h1⟩ := of_okAnd h
  rw [beq_iff_eq] at h1
  rw [h1]
  rfl

/-- The key makes the line depend on the history. -/
def Matters (b : KeyBindings) (k : Key) : Prop := ∃ (before after : List Key) (h : List String) (t t' : Text),
  (∀ x ∈ before ++ after, x ∉ heeds b) ∧ t ≠ t' ∧
  Said ((shelf b h).readLine (wide (before ++ [k] ++ after))) = some (.ok t) ∧
  Said ((shelf b []).readLine (wide (before ++ [k] ++ after))) = some (.ok t')

/-- One line with the entry `m x` in the history and another one without. -/
theorem matters {b : KeyBindings} {k : Key} (before : List Key) (t t' : Text)
    (h1 : ∀ x ∈ before ++ [.char '\n'], x ∉ heeds b) (h2 : t ≠ t')
    (h3 : okAnd ((shelf b ["m x"]).readLine (wide (before ++ [k] ++ [.char '\n']))) (fun x _ => x == t) = true)
    (h4 : okAnd ((shelf b []).readLine (wide (before ++ [k] ++ [.char '\n']))) (fun x _ => x == t') = true) :
    Matters b k := ⟨before, _, _, t, t', h1, h2, said_ok h3, said_ok h4⟩

/-- C83, none of the keys could be left out: each of them, typed once among keys that do not look at the history, makes the
line depend on it. -/
theorem C83_needed (b : KeyBindings) : ∀ k ∈ heeds b, Matters b k := by
  intro k hk
  cases b with
  | emacs =>
    have hk : k = .right ∨ k = .ctrl 'f' ∨ k = .ctrl 'r' ∨ k = .ctrl 's' ∨ k = .up ∨ k = .ctrl 'p' ∨ k = .alt '<' ∨
      k = .alt '.' := by simpa [heeds] using hk
    rcases hk with rfl | rfl | rfl | rfl | rfl | rfl | rfl | rfl
    · exact matters [.char 'm'] ['m', ' ', 'x'] ['m'] (by decide) (by decide) (by decide +kernel) (by decide +kernel)
    · exact matters [.char 'm'] ['m', ' ', 'x'] ['m'] (by decide) (by decide) (by decide +kernel) (by decide +kernel)
    · exact matters [.char 'm'] ['m', ' ', 'x'] ['m'] (by decide) (by decide) (by decide +kernel) (by decide +kernel)
    · exact matters [.char 'm'] ['m', ' ', 'x'] ['m'] (by decide) (by decide) (by decide +kernel) (by decide +kernel)
    · exact matters [.char 'm'] ['m', ' ', 'x'] ['m'] (by decide) (by decide) (by decide +kernel) (by decide +kernel)
    · exact matters [.char 'm'] ['m', ' ', 'x'] ['m'] (by decide) (by decide) (by decide +kernel) (by decide +kernel)
    · exact matters [.char 'm'] ['m', ' ', 'x'] ['m'] (by decide) (by decide) (by decide +kernel) (by decide +kernel)
    · exact matters [.char 'm'] ['m', 'x'] ['m'] (by decide) (by decide) (by decide +kernel) (by decide +kernel)
  | vi =>
    have hk : k = .right ∨ k = .ctrl 'f' ∨ k = .ctrl 'r' ∨ k = .ctrl 's' ∨ k = .up ∨ k = .char 'k' := by
      simpa [heeds] using hk
    rcases hk with rfl | rfl | rfl | rfl | rfl | rfl
    · exact matters [.char 'm'] ['m', ' ', 'x'] ['m'] (by decide) (by decide) (by decide +kernel) (by decide +kernel)
    · exact matters [.char 'm'] ['m', ' ', 'x'] ['m'] (by decide) (by decide) (by decide +kernel) (by decide +kernel)
    · exact matters [.char 'm'] ['m', ' ', 'x'] ['m'] (by decide) (by decide) (by decide +kernel) (by decide +kernel)
    · exact matters [.char 'm'] ['m', ' ', 'x'] ['m'] (by decide) (by decide) (by decide +kernel) (by decide +kernel)
    · exact matters [.char 'm'] ['m', ' ', 'x'] ['m'] (by decide) (by decide) (by decide +kernel) (by decide +kernel)
    · exact matters [.char 'm', .esc] ['m', ' ', 'x'] ['m'] (by decide) (by decide) (by decide +kernel) (by decide +kernel)

/-- C83, why `k` is left out also as a letter: after `x`, a line changed with `cc` to the letter `k` and repeated with `.`
is replaced by the last entry, because `.` repeats the letter as a command. -/
theorem C83_letter :
    let keys : List Key := [.char 'a', .esc, .char 'x', .char 'c', .char 'c', .char 'k', .esc, .char '.', .char '\n']
    Said ((shelf .vi ["make"]).readLine (wide keys)) = some (.ok ['m', 'a', 'k', 'e']) ∧
    Said ((shelf .vi []).readLine (wide keys)) = some (.ok ['k']) :=
  ⟨said_ok (by decide +kernel), said_ok (by decide +kernel)⟩

end Liner.Props
