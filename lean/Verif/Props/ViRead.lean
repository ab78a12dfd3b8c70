import Verif.Proof.ViRead
import Verif.Props.ViBoard
/-
What `read_line` returns in vi mode: C77.
-/

namespace Liner.Props
open Liner Liner.Spec Liner.Editor Liner.Wit Liner.Tests

section
variable (E : Env) (hC : ∀ c, E.cc.isWhitespace c = true → E.cc.isAlphanumeric c = false ∧ c ≠ '_')
  (p p' : Prompt) (h : History) (fs : FS) (b : Buffer) (hb : b.actions = []) (line : ViLine) (hc : line.Can E.cc b.data)
  (kcs : List (Key × (Text → List Text))) (hks : kcs.map Prod.fst = line.keys)
include hC hb hc hks

/-- C77: Enter returns the line that the board and the pen leave, unless there is a backslash before the cursor; only a
terminal that does not work can make it fail. -/
theorem C77_enter (comp : Text → List Text) (rest : List KeyMap.Input)
    (hl : ∀ l r, line.Leaves E.cc b.data l r → l.getLast? ≠ some '\\') :
    (∀ txt t', Vi.keyMap.readLine E p (Spec.typed kcs ++ .key (.char '\n') comp :: rest) ({}, initial p' h fs b) = .ok txt t' →
      ∃ l r, line.Leaves E.cc b.data l r ∧ txt = l ++ r) ∧
    (∀ e t', Vi.keyMap.readLine E p (Spec.typed kcs ++ .key (.char '\n') comp :: rest) ({}, initial p' h fs b) = .err e t' →
      e = .io ∧ ¬ Works E) ∧
    (Vi.keyMap.readLine E p (Spec.typed kcs ++ .key (.char '\n') comp :: rest) ({}, initial p' h fs b) = .panic .op →
      E.ttyWidth = some 0) := by
  have key := Vi.read_line E (tail := .key (.char '\n') comp :: rest)
    (Q := fun txt _ => ∃ l r, line.Leaves E.cc b.data l r ∧ txt = l ++ r) (R := fun e _ => Vi.Fails E e)
    (fun _ _ h => h) (apart_of hC) trivial p p' h fs b trivial hb line hc hks
    fun l r e t' h1 _ h2 h3 => wp_mono (Vi.loop_enter E comp h2 h3 (hl l r h1)) (fun _ _ h => ⟨l, r, h1, h⟩) (fun _ _ h => h) (fun _ h => h)
  exact ⟨fun txt t' hr => (wp_ok key hr :), fun e t' hr => (wp_err key hr :), fun hr => wp_panic' key hr rfl⟩

/-- C77: so does the end of the input. -/
theorem C77_end :
    (∀ txt t', Vi.keyMap.readLine E p (Spec.typed kcs) ({}, initial p' h fs b) = .ok txt t' →
      ∃ l r, line.Leaves E.cc b.data l r ∧ txt = l ++ r) ∧
    (∀ e t', Vi.keyMap.readLine E p (Spec.typed kcs) ({}, initial p' h fs b) = .err e t' → e = .io ∧ ¬ Works E) ∧
    (Vi.keyMap.readLine E p (Spec.typed kcs) ({}, initial p' h fs b) = .panic .op → E.ttyWidth = some 0) := by
  have key := Vi.read_line E (tail := [])
    (Q := fun txt _ => ∃ l r, line.Leaves E.cc b.data l r ∧ txt = l ++ r) (R := fun e _ => Vi.Fails E e)
    (fun _ _ h => h) (apart_of hC) trivial p p' h fs b trivial hb line hc hks
    fun l r e t' h1 _ h2 h3 => wp_mono (Vi.loop_end E h2) (fun _ _ h => ⟨l, r, h1, h⟩) (fun _ _ h => h.elim) (fun _ h => h)
  rw [List.append_nil] at key
  exact ⟨fun txt t' hr => (wp_ok key hr :), fun e t' hr => (wp_err key hr :), fun hr => wp_panic' key hr rfl⟩

/-- C77: Ctrl-C makes it fail, and Ctrl-D does if nothing is left. -/
theorem C77_stop (comp : Text → List Text) (rest : List KeyMap.Input) (k : Key) (err : IoErr)
    (hk : (k = .ctrl 'c' ∧ err = .interrupted) ∨
      (k = .ctrl 'd' ∧ err = .unexpectedEof ∧ ∀ l r, line.Leaves E.cc b.data l r → l ++ r = [])) :
    (∀ txt t', Vi.keyMap.readLine E p (Spec.typed kcs ++ .key k comp :: rest) ({}, initial p' h fs b) ≠ .ok txt t') ∧
    (∀ e t', Vi.keyMap.readLine E p (Spec.typed kcs ++ .key k comp :: rest) ({}, initial p' h fs b) = .err e t' →
      e = err ∨ (e = .io ∧ ¬ Works E)) ∧
    (Vi.keyMap.readLine E p (Spec.typed kcs ++ .key k comp :: rest) ({}, initial p' h fs b) = .panic .op →
      E.ttyWidth = some 0) := by
  have key := Vi.read_line E (tail := .key k comp :: rest)
    (Q := fun _ _ => False) (R := fun e _ => e = err ∨ Vi.Fails E e)
    (fun _ _ h => .inr h) (apart_of hC) trivial p p' h fs b trivial hb line hc hks
    fun l r e t' h1 _ h2 h3 => Vi.loop_stop E comp h2 h3 (hk.imp id fun h => ⟨h.1, h.2.2 l r h1, h.2.1⟩)
  exact ⟨fun txt t' hr => (wp_ok key hr :), fun e t' hr => (wp_err key hr :), fun hr => wp_panic' key hr rfl⟩

/-- C77: on a terminal that works, a line without undo that leaves `l` and `r` is returned exactly, if nothing panics. -/
theorem C77_exact (hE : Works E) (hu : line.NoUndo) (l r : Text) (hl : line.Leaves E.cc b.data l r) (hn : l.getLast? ≠ some '\\')
    (comp : Text → List Text) (rest : List KeyMap.Input) :
    (∃ t', Vi.keyMap.readLine E p (Spec.typed kcs ++ .key (.char '\n') comp :: rest) ({}, initial p' h fs b) = .ok (l ++ r) t') ∨
    ∃ w, Vi.keyMap.readLine E p (Spec.typed kcs ++ .key (.char '\n') comp :: rest) ({}, initial p' h fs b) = .panic w := by
  have h1 := C77_enter E hC p p' h fs b hb line hc kcs hks comp rest
    (fun l' r' h' => by rw [(Vi.leaves_unique hu hl h').1]; exact hn)
  cases hm : Vi.keyMap.readLine E p (Spec.typed kcs ++ .key (.char '\n') comp :: rest) ({}, initial p' h fs b) with
  | ok txt t' =>
    obtain ⟨l', r', h2, rfl⟩ := h1.1 txt t' hm
    obtain ⟨rfl, rfl⟩ := Vi.leaves_unique hu hl h2
    exact .inl ⟨t', rfl⟩
  | err e t' => exact absurd hE (h1.2.1 e t' hm).2
  | panic w => exact .inr ⟨w, rfl⟩

end

/-- C77: without undo the line left is certain. -/
theorem C77_unique (C : CharClass) (d l r l' r' : Text) (line : ViLine) (hu : line.NoUndo) (h : line.Leaves C d l r)
    (h' : line.Leaves C d l' r') : l' = l ∧ r' = r := Vi.leaves_unique hu h h'

/-! ### Cases -/

/-- What `read_line` makes of the keys on a line that begins with a text. -/
def viReads (line : String) (keys : List Key) : Out (Vi × Ed) Text :=
  Vi.keyMap.readLine env { prompt := ['>', ' '] } (keys.map fun k => .key k fun _ => []) (({} : Vi), fresh [] line)

/-- Something written, commands, and an insertion ended with Enter: ex is written before `b`. -/
def someLine : ViLine :=
  .writing [.char 'a', .left, .char 'b'] [.edge false, .make (.cut (.char 'x')) [], .again] (.insert 'a') [] [.char 'e', .char 'x']

theorem ascii_apart (c : Char) (h : env.cc.isWhitespace c = true) : env.cc.isAlphanumeric c = false ∧ c ≠ '_' := by
  have h : Char.isWhitespace c = true := h
  simp only [Char.isWhitespace, Bool.or_eq_true, decide_eq_true_eq] at h
  rcases h with ((rfl | rfl) | rfl) | rfl <;> decide

theorem someLine_can : someLine.Can env.cc ['c', 'd'] := by
  refine ⟨Vi.pen_can _ _ (by simp [WritingKey, Types, Moves]), fun b0 ⟨pen, h1, h2⟩ => ⟨?_, fun b' _ => ⟨⟨by simp, by simp⟩,
    (by decide : 'a' ∈ ['i', 'a', 'I', 'A']), fun p _ => Vi.pen_can _ _ (by simp [WritingKey, Types])⟩⟩⟩
  exact Vi.canAll_always env.cc _ b0 (by simp [Command.Always, Change.Always, Change.Can, Digits]) h2.full
    (Vi.ends_always h2 (Vi.pens_always h1 ⟨show 'i' ∈ ['i', 'a', 'I', 'A'] by decide, fun k hk => (by cases hk)⟩))

example : someLine.NoUndo := by simp [ViLine.NoUndo, someLine]

/-- What the line leaves is what is returned. -/
example : ∃ l r, someLine.Leaves env.cc ['c', 'd'] l r ∧ l ++ r = ['b', 'e', 'x', 'a'] := by
  have key : okAnd (viReads "cd" someLine.keys) (fun txt _ => txt == ['b', 'e', 'x', 'a']) = true := by decide +kernel
  obtain ⟨txt, t', h1, h2⟩ := of_okAnd key
  obtain ⟨l, r, h3, h4⟩ := (C77_end env ascii_apart _ _ _ _ (.ofText ['c', 'd']) rfl someLine someLine_can
    (someLine.keys.map fun k => (k, fun _ => [])) (by simp [List.map_map, Function.comp_def])).1 txt t'
    (by unfold viReads at h1; rw [Spec.typed, List.map_map]; exact h1)
  exact ⟨l, r, h3, by rw [← h4]; simpa using h2⟩

example : okAnd (viReads "cd" (someLine.keys ++ [.char '\n', .char 'z'])) (fun txt _ => txt == "bexa".toList) = true := by
  decide +kernel

example : errAnd (viReads "cd" (someLine.keys ++ [.ctrl 'c', .char 'z'])) (fun e _ => e == .interrupted) = true := by
  decide +kernel

/-- A line of two rows: Enter after a backslash goes on with it, the next one ends it. -/
def enterLine : ViLine := .first [.char 'a', .char '\\', .char '\n', .char 'b']

example : enterLine.Can env.cc ['c'] := by
  refine ⟨.inl ⟨.inl (by simp [Types]), by simp⟩, fun p1 h1 => ?_⟩
  refine ⟨.inl ⟨.inl (by simp [Types]), by simp⟩, fun p2 h2 => ?_⟩
  have h2 : p2.left.getLast? = some '\\' := by
    cases h2 with
    | type _ _ => simp [typeKey]
    | restart _ _ _ => simp [typeKey]
    | move h => simp [Moves] at h
    | inert h => simp [Inert] at h
  exact ⟨.inr ⟨rfl, h2⟩, fun p3 h3 => ⟨.inl ⟨.inl (by simp [Types]), by simp⟩, fun _ _ => trivial⟩⟩

example : okAnd (viReads "c" (enterLine.keys ++ [.char '\n', .char 'z'])) (fun txt _ => txt == "ca\\\nb".toList) = true := by
  decide +kernel

end Liner.Props
